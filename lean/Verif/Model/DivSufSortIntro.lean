import Verif.Model.DivSufSortSS

/-!
# Sorting a bucket of B* substrings: multikey introsort

util/divsufsort/divsufsort_ssort.hpp:61-86, 143-394.  Modelled: the heap sort, the choice of the pivot, `ss_partition`, `ss_mintrosort`, `ss_isqrt`.

Simplifications: positions in the array are natural numbers, and loop variables are taken after their `++` or `--` (so the `first - 1` of
`ss_partition` does not appear); a loop bounded by a distance is a recursion over that distance; `x` is 0 where the code leaves an old value that it does
not look at. A full stack (`STACK_PUSH` at 16 entries) is an error. `ss_mintrosort` and `ss_fixdown` get a number of rounds, running out of which is an error.
-/

namespace Tdc.DSS

variable (cell : Int → Int)

/-- `Td[B[PA + B[p]]]` with `Td = T + depth` -/
def ssChar (T : List UInt8) (PA depth : Int) (B : List Int) (p : Nat) : Res Nat :=
  (sget B p).bind fun v => (sget B (PA + v)).bind fun s => tget T (depth + s)

/-- divsufsort_private.hpp `SWAP(B[p], B[q])` -/
def ssSwap (p q : Nat) (B : List Int) : Res (List Int) :=
  (sget B p).bind fun t => (sget B q).bind fun u => (sset cell B p u).bind fun B => sset cell B q t

/-- divsufsort_ssort.hpp:186-196 `ss_median3`, the characters being read by `ch` -/
def ssMedian3 (ch : Nat → Res Nat) (v1 v2 v3 : Nat) : Res Nat :=
  (ch v1).bind fun x1 => (ch v2).bind fun x2 =>
  let w1 := if x2 < x1 then v2 else v1
  let w2 := if x2 < x1 then v1 else v2
  (ch w2).bind fun y2 => (ch v3).bind fun y3 =>
  if y3 < y2 then (ch w1).bind fun y1 => if y3 < y1 then .ok w1 else .ok v3 else .ok w2

/-- `if(Td[B[PA + B[v]]] > Td[B[PA + B[w]]]) { SWAP(v, w); }` -/
def ssOrd (ch : Nat → Res Nat) (v w : Nat) : Res (Bool) := (ch v).bind fun x => (ch w).bind fun y => .ok (decide (y < x))

/-- divsufsort_ssort.hpp:198-210 `ss_median5` -/
def ssMedian5 (ch : Nat → Res Nat) (v1 v2 v3 v4 v5 : Nat) : Res Nat :=
  (ssOrd ch v2 v3).bind fun s =>
  let (v2, v3) := if s then (v3, v2) else (v2, v3)
  (ssOrd ch v4 v5).bind fun s =>
  let (v4, v5) := if s then (v5, v4) else (v4, v5)
  (ssOrd ch v2 v4).bind fun s =>
  let (v2, v4, v3, v5) := if s then (v4, v2, v5, v3) else (v2, v4, v3, v5)
  (ssOrd ch v1 v3).bind fun s =>
  let (v1, v3) := if s then (v3, v1) else (v1, v3)
  (ssOrd ch v1 v4).bind fun s =>
  let (v4, v3) := if s then (v1, v5) else (v4, v3)
  let _ := v2
  (ssOrd ch v3 v4).bind fun s => if s then .ok v4 else .ok v3

/-- divsufsort_ssort.hpp:213-234 `ss_pivot` -/
def ssPivot (ch : Nat → Res Nat) (first last : Nat) : Res Nat :=
  let t := last - first
  let middle := first + t / 2
  if t ≤ 512 then
    if t ≤ 32 then ssMedian3 ch first middle (last - 1)
    else ssMedian5 ch first (first + t / 4) middle (last - 1 - t / 4) (last - 1)
  else
    let t := t / 8
    (ssMedian3 ch first (first + t) (first + 2 * t)).bind fun f => (ssMedian3 ch (middle - t) middle (middle + t)).bind fun m =>
    (ssMedian3 ch (last - 1 - 2 * t) (last - 1 - t) (last - 1)).bind fun l => ssMedian3 ch f m l

/-- divsufsort_ssort.hpp:246: `(B[PA + B[a]] + depth) >= (B[PA + B[a] + 1] + 1)`: the substring ends with the character at `depth`. -/
def ssEnded (PA depth : Int) (B : List Int) (a : Nat) : Res Bool :=
  (sget B a).bind fun v => (sget B (PA + v)).bind fun s => (sget B (PA + v + 1)).bind fun e => .ok (decide (e + 1 ≤ s + depth))

/-- divsufsort_ssort.hpp:246, `d = b - a` -/
def ssPartUp (PA depth : Int) : Nat → Nat → List Int → Res (Nat × List Int)
  | 0, a, B => .ok (a, B)
  | d + 1, a, B => (ssEnded PA depth B a).bind fun e =>
    if e then (sget B a).bind fun v => (sset cell B a (inv v)).bind fun B => ssPartUp PA depth d (a + 1) B else .ok (a, B)

/-- divsufsort_ssort.hpp:247, `d = b - a` -/
def ssPartDown (PA depth : Int) (B : List Int) : Nat → Nat → Res Nat
  | 0, b => .ok b
  | d + 1, b => (ssEnded PA depth B b).bind fun e => if e then .ok b else ssPartDown PA depth B d (b - 1)

/-- divsufsort_ssort.hpp:245-252: `a` after its increment, `b` before its decrement -/
def ssPartLoop (PA depth : Int) : Nat → Nat → Nat → List Int → Res (Nat × List Int)
  | 0, _, _, _ => .error .loop
  | fuel + 1, a, b, B =>
    (ssPartUp cell PA depth (b - a) a B).bind fun (a, B) => (ssPartDown PA depth B (b - 1 - a) (b - 1)).bind fun b =>
    if b ≤ a then .ok (a, B)                                                                                       -- :248
    else (sget B b).bind fun t => (sget B a).bind fun u => (sset cell B b u).bind fun B => (sset cell B a (inv t)).bind fun B =>
      ssPartLoop PA depth fuel (a + 1) b B                                                                         -- :249-251

/-- divsufsort_ssort.hpp:239-255 `ss_partition` -/
def ssPartition (PA depth : Int) (first last : Nat) (B : List Int) : Res (Nat × List Int) :=
  (ssPartLoop cell PA depth (last - first + 1) first last B).bind fun (a, B) =>
  if first < a then (sget B first).bind fun v => (sset cell B first (inv v)).bind fun B => .ok (a, B) else .ok (a, B)   -- :253

/-- divsufsort_ssort.hpp:320: `for(b = first; (++b < last) && ((x = ch b) == v);) { }`, `d = last - b` -/
def ssUpEq (T : List UInt8) (PA depth : Int) (v : Nat) (B : List Int) : Nat → Nat → Res (Nat × Nat)
  | 0, b => .ok (b, 0)
  | d + 1, b => (ssChar T PA depth B b).bind fun x => if x = v then ssUpEq T PA depth v B d (b + 1) else .ok (b, x)

/-- divsufsort_ssort.hpp:322-324, 334-336: `d` is the limit less `b` -/
def ssUpScan (T : List UInt8) (PA depth : Int) (v : Nat) : Nat → Nat → Nat → List Int → Res (Nat × Nat × List Int)
  | 0, a, b, B => .ok (a, b, B)
  | d + 1, a, b, B => (ssChar T PA depth B b).bind fun x =>
    if x ≤ v then
      if x = v then (ssSwap cell b a B).bind fun B => ssUpScan T PA depth v d (a + 1) (b + 1) B
      else ssUpScan T PA depth v d a (b + 1) B
    else .ok (a, b, B)

/-- divsufsort_ssort.hpp:326: `for(c = last; (b < --c) && ((x = ch c) == v);) { }`, `d = c - b` -/
def ssDownEq (T : List UInt8) (PA depth : Int) (v : Nat) (B : List Int) : Nat → Nat → Res (Nat × Nat)
  | 0, c => .ok (c, 0)
  | d + 1, c => (ssChar T PA depth B c).bind fun x => if x = v then ssDownEq T PA depth v B d (c - 1) else .ok (c, x)

/-- divsufsort_ssort.hpp:328-330, 337-339: `d = c - b`, `e` is the `d` of the code -/
def ssDownScan (T : List UInt8) (PA depth : Int) (v : Nat) : Nat → Nat → Nat → List Int → Res (Nat × Nat × List Int)
  | 0, c, e, B => .ok (c, e, B)
  | d + 1, c, e, B => (ssChar T PA depth B c).bind fun x =>
    if v ≤ x then
      if x = v then (ssSwap cell c e B).bind fun B => ssDownScan T PA depth v d (c - 1) (e - 1) B
      else ssDownScan T PA depth v d (c - 1) e B
    else .ok (c, e, B)

/-- divsufsort_ssort.hpp:332-340 -/
def ssMainScan (T : List UInt8) (PA depth : Int) (v : Nat) : Nat → Nat → Nat → Nat → Nat → List Int → Res (Nat × Nat × Nat × Nat × List Int)
  | 0, _, _, _, _, _ => .error .loop
  | fuel + 1, a, b, c, e, B =>
    if b < c then
      (ssSwap cell b c B).bind fun B =>
      (ssUpScan cell T PA depth v (c - (b + 1)) a (b + 1) B).bind fun (a, b, B) =>
      (ssDownScan cell T PA depth v (c - 1 - b) (c - 1) e B).bind fun (c, e, B) => ssMainScan T PA depth v fuel a b c e B
    else .ok (a, b, c, e, B)

/-- divsufsort_ssort.hpp:346, 348: `for(; 0 < s; --s, ++e, ++f) { SWAP(B[e], B[f]); }` -/
def ssSwapRange : Nat → Nat → Nat → List Int → Res (List Int)
  | 0, _, _, B => .ok B
  | s + 1, e, f, B => (ssSwap cell e f B).bind fun B => ssSwapRange s (e + 1) (f + 1) B

/-- divsufsort_ssort.hpp:320-340: from the pivot in front on; delivers `a`, `b`, `d` -/
def ssScans (T : List UInt8) (PA depth : Int) (v first last : Nat) (B : List Int) : Res (Nat × Nat × Nat × List Int) :=
  (ssUpEq T PA depth v B (last - (first + 1)) (first + 1)).bind fun (b, x) =>
  let a := b
  (if a < last ∧ x < v then ssUpScan cell T PA depth v (last - (b + 1)) a (b + 1) B else .ok (a, b, B)).bind fun (a, b, B) =>
  (ssDownEq T PA depth v B (last - 1 - b) (last - 1)).bind fun (c, x) =>
  let e := c
  (if b < e ∧ v < x then ssDownScan cell T PA depth v (c - 1 - b) (c - 1) e B else .ok (c, e, B)).bind fun (c, e, B) =>
  (ssMainScan cell T PA depth v (last - first) a b c e B).bind fun (a, b, _, e, B) => .ok (a, b, e, B)

/-- what is still to be sorted: an entry of `stack` -/
structure Seg where
  first : Nat
  last : Nat
  depth : Nat
  limit : Int

/-- divsufsort_def.hpp:32-76 `ilg`, of `last - first` -/
def ssIlg (n : Nat) : Int := if n = 0 then -1 else Nat.log2 n

/-- divsufsort_private.hpp `STACK_PUSH` with `SS_MISORT_STACKSIZE = 16` -/
def ssPush (s : Seg) (st : List Seg) : Res (List Seg) := if st.length < 16 then .ok (s :: st) else .error .ub

/-- both pushes, and what is sorted next -/
def ssPush2 (s1 s2 next : Seg) (st : List Seg) (B : List Int) : Res (Seg × List Seg × List Int) :=
  (ssPush s1 st).bind fun st => (ssPush s2 st).bind fun st => .ok (next, st, B)

/-- divsufsort_ssort.hpp:314-389 (one round with a pivot); `s.limit` is the limit after its decrement -/
def ssPivotStep (T : List UInt8) (PA : Int) (s : Seg) (st : List Seg) (B : List Int) : Res (Seg × List Seg × List Int) :=
  let { first, last, depth, limit } := s
  (ssPivot (ssChar T PA depth B) first last).bind fun a => (ssChar T PA depth B a).bind fun v =>                    -- :315-316
  (ssSwap cell first a B).bind fun B =>                                                                            -- :317
  (ssScans cell T PA depth v first last B).bind fun (a, b, d, B) =>
  if a ≤ d then                                                                                                     -- :342
    (ssSwapRange cell (min (a - first) (b - a)) first (b - min (a - first) (b - a)) B).bind fun B =>                -- :345-346
    (ssSwapRange cell (min (d + 1 - b) (last - d - 1)) b (last - min (d + 1 - b) (last - d - 1)) B).bind fun B =>   -- :347-348
    let a := first + (b - a)                                                                                        -- :350
    let c := last - (d + 1 - b)
    (ssChar T PA (depth - 1) B a).bind fun u =>
    (if v ≤ u then .ok (a, B) else ssPartition cell PA depth a c B).bind fun (b, B) =>                              -- :351
    let A : Seg := ⟨first, a, depth, limit⟩
    let M : Seg := ⟨b, c, depth + 1, ssIlg (c - b)⟩
    let R : Seg := ⟨c, last, depth, limit⟩
    if a - first ≤ last - c then                                                                                    -- :353-366
      if last - c ≤ c - b then ssPush2 M R A st B
      else if a - first ≤ c - b then ssPush2 R M A st B
      else ssPush2 R A M st B
    else                                                                                                            -- :367-381
      if a - first ≤ c - b then ssPush2 M A R st B
      else if last - c ≤ c - b then ssPush2 A M R st B
      else ssPush2 A R M st B
  else                                                                                                              -- :382-389
    (ssChar T PA (depth - 1) B first).bind fun u =>
    (if u < v then (ssPartition cell PA depth first last B).bind fun (f, B) => .ok (f, ssIlg (last - f), B) else .ok (first, limit + 1, B)).bind fun (first, limit, B) =>
    .ok (⟨first, last, depth + 1, limit⟩, st, B)

/-- divsufsort_ssort.hpp:286-292: `d = last - a`; delivers `first`, `a` and `v` -/
def ssRun (T : List UInt8) (PA depth : Int) (B : List Int) : Nat → Nat → Nat → Nat → Res (Nat × Nat × Nat)
  | 0, first, a, v => .ok (first, a, v)
  | d + 1, first, a, v => (ssChar T PA depth B a).bind fun x =>
    if x = v then ssRun T PA depth B d first (a + 1) v
    else if 1 < a - first then .ok (first, a, v) else ssRun T PA depth B d a (a + 1) x

/-- divsufsort_ssort.hpp:285-312 (one round without a pivot, the substrings are sorted by the character at `depth`) -/
def ssRunStep (T : List UInt8) (PA : Int) (s : Seg) (st : List Seg) (B : List Int) : Res (Seg × List Seg × List Int) :=
  let { first, last, depth, limit := _ } := s
  (ssChar T PA depth B first).bind fun v => (ssRun T PA depth B (last - (first + 1)) first (first + 1) v).bind fun (first, a, v) =>
  (ssChar T PA (depth - 1) B first).bind fun u =>
  (if u < v then ssPartition cell PA depth first a B else .ok (first, B)).bind fun (first, B) =>                    -- :293-295
  if a - first ≤ last - a then                                                                                      -- :296-302
    if 1 < a - first then (ssPush ⟨a, last, depth, -1⟩ st).bind fun st => .ok (⟨first, a, depth + 1, ssIlg (a - first)⟩, st, B)
    else .ok (⟨a, last, depth, -1⟩, st, B)
  else                                                                                                              -- :303-310
    if 1 < last - a then (ssPush ⟨first, a, depth + 1, ssIlg (a - first)⟩ st).bind fun st => .ok (⟨a, last, depth, -1⟩, st, B)
    else .ok (⟨first, a, depth + 1, ssIlg (a - first)⟩, st, B)

/-- divsufsort_ssort.hpp:152-158: the loop of `ss_fixdown`; the heap begins at `f`, `B[f + i]` is the free place for `v` -/
def ssFixLoop (T : List UInt8) (PA depth : Int) (f size : Nat) (v : Int) (c : Nat) : Nat → Nat → List Int → Res (List Int)
  | 0, _, _ => .error .loop
  | fuel + 1, i, B =>
    if 2 * i + 1 < size then
      (ssChar T PA depth B (f + (2 * i + 1))).bind fun d => (ssChar T PA depth B (f + (2 * i + 2))).bind fun e =>   -- :153-155
      let k := if d < e then 2 * i + 2 else 2 * i + 1
      let d := if d < e then e else d
      if d ≤ c then sset cell B ((f + i : Nat) : Int) v                                                            -- :156, 158
      else (sget B ((f + k : Nat) : Int)).bind fun w => (sset cell B ((f + i : Nat) : Int) w).bind fun B => ssFixLoop T PA depth f size v c fuel k B
    else sset cell B ((f + i : Nat) : Int) v                                                                       -- :158

/-- divsufsort_ssort.hpp:145-159 `ss_fixdown` -/
def ssFixdown (T : List UInt8) (PA depth : Int) (f i size : Nat) (B : List Int) : Res (List Int) :=
  (sget B ((f + i : Nat) : Int)).bind fun v => (ssChar T PA depth B (f + i)).bind fun c => ssFixLoop cell T PA depth f size v c (size + 1) i B

/-- divsufsort_ssort.hpp:173: `for(i = n - 1; 0 <= i; --i)` -/
def ssHeapBuild (T : List UInt8) (PA depth : Int) (f size : Nat) : Nat → List Int → Res (List Int)
  | 0, B => .ok B
  | n + 1, B => (ssFixdown cell T PA depth f n size B).bind fun B => ssHeapBuild T PA depth f size n B

/-- divsufsort_ssort.hpp:175-179: `for(i = n; 0 < i; --i)` -/
def ssHeapPop (T : List UInt8) (PA depth : Int) (f : Nat) : Nat → List Int → Res (List Int)
  | 0, B => .ok B
  | n + 1, B =>
    (sget B (f : Int)).bind fun t => (sget B ((f + (n + 1) : Nat) : Int)).bind fun u => (sset cell B (f : Int) u).bind fun B =>
    (ssFixdown cell T PA depth f 0 (n + 1) B).bind fun B => (sset cell B ((f + (n + 1) : Nat) : Int) t).bind fun B => ssHeapPop T PA depth f n B

/-- divsufsort_ssort.hpp:162-180 `ss_heapsort`, `last = f + size` -/
def ssHeapsort (T : List UInt8) (PA depth : Int) (f last : Nat) (B : List Int) : Res (List Int) :=
  let size := last - f
  if size % 2 = 0 then
    let m := size - 1
    (ssChar T PA depth B (f + m / 2)).bind fun x => (ssChar T PA depth B (f + m)).bind fun y =>
    (if x < y then ssSwap cell (f + m) (f + m / 2) B else .ok B).bind fun B =>                                     -- :170
    (ssHeapBuild cell T PA depth f m (m / 2) B).bind fun B =>
    (ssSwap cell f (f + m) B).bind fun B => (ssFixdown cell T PA depth f 0 m B).bind fun B =>                      -- :174
    ssHeapPop cell T PA depth f (m - 1) B
  else (ssHeapBuild cell T PA depth f size (size / 2) B).bind fun B => ssHeapPop cell T PA depth f (size - 1) B

/-- `ss_heapsort(Td, B, PA, first, last - first)` -/
abbrev HeapSort := Nat → Nat → Nat → List Int → Res (List Int)

/-- divsufsort_ssort.hpp:259-392 `ss_mintrosort`, from the round with `s` and `stack` on -/
def ssIntro (heap : HeapSort) (T : List UInt8) (PA : Int) : Nat → Seg → List Seg → List Int → Res (List Int)
  | 0, _, _, _ => .error .loop
  | fuel + 1, s, st, B =>
    if s.last - s.first ≤ 8 then                                                                                    -- :273-279
      (if 1 < s.last - s.first then ssInsertionsort cell T PA s.depth s.first s.last B else .ok B).bind fun B =>
      match st with
      | [] => .ok B
      | s' :: st' => ssIntro heap T PA fuel s' st' B
    else
      (if s.limit = 0 then heap s.depth s.first s.last B else .ok B).bind fun B =>                                  -- :281-284
      (if s.limit ≤ 0 then ssRunStep cell T PA s st B else ssPivotStep cell T PA { s with limit := s.limit - 1 } st B).bind fun (s', st', B) =>
      ssIntro heap T PA fuel s' st' B

/-- divsufsort_ssort.hpp:259-271 `ss_mintrosort` -/
def ssMintrosort (heap : HeapSort) (T : List UInt8) (PA : Int) (first last depth : Nat) (B : List Int) : Res (List Int) :=
  ssIntro cell heap T PA (3 * (T.length + 1) * (last - first) + 2) ⟨first, last, depth, ssIlg (last - first)⟩ [] B

/-- divsufsort_ssort.hpp:42-59 -/
def sqqTable : List Nat := [
  0, 16, 22, 27, 32, 35, 39, 42, 45, 48, 50, 53, 55, 57, 59, 61, 64, 65, 67, 69, 71, 73, 75, 76, 78, 80, 81, 83, 84, 86, 87, 89,
  90, 91, 93, 94, 96, 97, 98, 99, 101, 102, 103, 104, 106, 107, 108, 109, 110, 112, 113, 114, 115, 116, 117, 118, 119, 120, 121, 122, 123, 124, 125, 126,
  128, 128, 129, 130, 131, 132, 133, 134, 135, 136, 137, 138, 139, 140, 141, 142, 143, 144, 144, 145, 146, 147, 148, 149, 150, 150, 151, 152, 153, 154, 155, 155,
  156, 157, 158, 159, 160, 160, 161, 162, 163, 163, 164, 165, 166, 167, 167, 168, 169, 170, 170, 171, 172, 173, 173, 174, 175, 176, 176, 177, 178, 178, 179, 180,
  181, 181, 182, 183, 183, 184, 185, 185, 186, 187, 187, 188, 189, 189, 190, 191, 192, 192, 193, 193, 194, 195, 195, 196, 197, 197, 198, 199, 199, 200, 201, 201,
  202, 203, 203, 204, 204, 205, 206, 206, 207, 208, 208, 209, 209, 210, 211, 211, 212, 212, 213, 214, 214, 215, 215, 216, 217, 217, 218, 218, 219, 219, 220, 221,
  221, 222, 222, 223, 224, 224, 225, 225, 226, 226, 227, 227, 228, 229, 229, 230, 230, 231, 231, 232, 232, 233, 234, 234, 235, 235, 236, 236, 237, 237, 238, 238,
  239, 240, 240, 241, 241, 242, 242, 243, 243, 244, 244, 245, 245, 246, 246, 247, 247, 248, 248, 249, 249, 250, 250, 251, 251, 252, 252, 253, 253, 254, 254, 255]

/-- divsufsort_ssort.hpp:61-86 `ss_isqrt` (a right shift by a negative number does not occur) -/
def ssIsqrt (x : Nat) : Nat :=
  if 1024 * 1024 ≤ x then 1024
  else
    let e := Nat.log2 x                                                                                            -- -1 in the code if x = 0
    let fin := fun y => if x < y * y then y - 1 else y
    if 16 ≤ e then
      let y := sqqTable.getD (x >>> (e - 6 - e % 2)) 0 <<< (e / 2 - 7)
      let y := if 24 ≤ e then (y + 1 + x / y) >>> 1 else y
      fin ((y + 1 + x / y) >>> 1)
    else if 8 ≤ e then fin ((sqqTable.getD (x >>> (e - 6 - e % 2)) 0 >>> (7 - e / 2)) + 1)
    else sqqTable.getD x 0 >>> 4

end Tdc.DSS
