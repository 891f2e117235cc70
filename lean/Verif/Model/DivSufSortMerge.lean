import Verif.Model.DivSufSortIntro

/-!
# Sorting a bucket of B* substrings: rotation, merging in place, and the blocks of `sssort`

util/divsufsort/divsufsort_ssort.hpp:402-485, 690-759.  A parameter: `ss_swapmerge` (merging with a buffer).

Simplifications: positions in the array are natural numbers; the inner loops of `ss_rotate`, which begin again with `continue`-like assignments, are further
rounds of the outer loop (they begin in the same state); a loop without a counter gets a number of rounds, running out of which is an error.
-/

namespace Tdc.DSS

variable (cell : Int → Int)

/-- divsufsort_ssort.hpp:425-426: `d` times `B[a--] = B[b], B[b--] = B[a];` -/
def ssRotDown : Nat → Nat → Nat → List Int → Res (List Int)
  | 0, _, _, B => .ok B
  | d + 1, a, b, B =>
    (sget B b).bind fun v => (sset cell B a v).bind fun B => (sget B ((a - 1 : Nat) : Int)).bind fun w => (sset cell B b w).bind fun B =>
    ssRotDown d (a - 1) (b - 1) B

/-- divsufsort_ssort.hpp:439-440: `d` times `B[a++] = B[b], B[b++] = B[a];` -/
def ssRotUp : Nat → Nat → Nat → List Int → Res (List Int)
  | 0, _, _, B => .ok B
  | d + 1, a, b, B =>
    (sget B b).bind fun v => (sset cell B a v).bind fun B => (sget B ((a + 1 : Nat) : Int)).bind fun w => (sset cell B b w).bind fun B =>
    ssRotUp d (a + 1) (b + 1) B

/-- divsufsort_ssort.hpp:410-447 `ss_rotate`; `ssSwapRange` is `ss_blockswap` (:402-407), too -/
def ssRotate : Nat → Nat → Nat → Nat → List Int → Res (List Int)
  | 0, _, _, _, _ => .error .loop
  | fuel + 1, first, middle, last, B =>
    let l := middle - first
    let r := last - middle
    if 0 < l ∧ 0 < r then                                                                                          -- :414
      if l = r then ssSwapRange cell l first middle B                                                              -- :415
      else if l < r then                                                                                           -- :416-429
        (sget B ((last - 1 : Nat) : Int)).bind fun t => (ssRotDown cell l (last - 1) (middle - 1) B).bind fun B =>
        (sset cell B ((last - 1 - l : Nat) : Int) t).bind fun B => ssRotate fuel first middle (last - 1 - l) B
      else                                                                                                         -- :430-444
        (sget B (first : Int)).bind fun t => (ssRotUp cell r first middle B).bind fun B =>
        (sset cell B ((first + r : Nat) : Int) t).bind fun B => ssRotate fuel (first + r + 1) middle last B
    else .ok B

/-- `(0 <= B[b]) ? B[b] : ~B[b]` -/
def unmark (v : Int) : Int := if 0 ≤ v then v else inv v

/-- divsufsort_ssort.hpp:462-473: delivers `a` and `r` -/
def ssBisect (T : List UInt8) (PA depth p : Int) (B : List Int) : Nat → Nat → Nat → Int → Res (Nat × Int)
  | 0, _, _, _ => .error .loop
  | fuel + 1, a, len, r =>
    if 0 < len then
      (sget B ((a + len / 2 : Nat) : Int)).bind fun v => (ssCompareAt T PA B (unmark v) p depth).bind fun q =>
      if q < 0 then ssBisect T PA depth p B fuel (a + len / 2 + 1) (len / 2 - (1 - len % 2)) r
      else ssBisect T PA depth p B fuel a (len / 2) q
    else .ok (a, r)

/-- divsufsort_ssort.hpp:482: `while(B[--last] < 0) { }` -/
def ssRunHead (B : List Int) : Nat → Res Nat
  | 0 => .error .ub
  | last + 1 => (sget B (last : Int)).bind fun v => if v < 0 then ssRunHead B last else .ok last

/-- divsufsort_ssort.hpp:450-485 `ss_inplacemerge` -/
def ssInplacemerge (T : List UInt8) (PA depth : Int) : Nat → Nat → Nat → Nat → List Int → Res (List Int)
  | 0, _, _, _, _ => .error .loop
  | fuel + 1, first, middle, last, B =>
    (sget B ((last - 1 : Nat) : Int)).bind fun v =>                                                                -- :460-461
    (ssBisect T PA depth (unmark v) B (middle - first + 1) first (middle - first) (-1)).bind fun (a, r) =>
    let next := fun (middle last : Nat) (B : List Int) =>                                                          -- :481-483
      (if v < 0 then ssRunHead B (last - 1) else .ok (last - 1)).bind fun last' =>
      if middle = last' then .ok B else ssInplacemerge T PA depth fuel first middle last' B
    if a < middle then                                                                                             -- :474-480
      (if r = 0 then (sget B (a : Int)).bind fun w => sset cell B (a : Int) (inv w) else .ok B).bind fun B =>
      (ssRotate cell (last - a + 1) a middle last B).bind fun B =>
      if first = a then .ok B else next a (last - (middle - a)) B
    else next middle last B

/-- `ss_swapmerge(T, B, PA, first, middle, last, buf, bufsize, 2)`: the array, `first`, `middle`, `last`, `buf`, `bufsize` -/
abbrev SwapMerge := List Int → Nat → Nat → Nat → Nat → Nat → Res (List Int)

/-- divsufsort_ssort.hpp:724-726 -/
def ssCarry (sm : SwapMerge) (buf bufsize : Nat) : Nat → Nat → Nat → Nat → List Int → Res (List Int)
  | 0, _, _, _, _ => .error .loop
  | fuel + 1, b, k, j, B =>
    if j % 2 = 1 then (sm B (b - k) b (b + k) buf bufsize).bind fun B => ssCarry sm buf bufsize fuel (b - k) (2 * k) (j / 2) B else .ok B

/-- `ss_mintrosort(T, B, PA, first, last, 2)` -/
def ssMintro2 (T : List UInt8) (PA : Int) (first last : Nat) (B : List Int) : Res (List Int) :=
  ssMintrosort cell (fun d f l B => ssHeapsort cell T PA d f l B) T PA first last 2 B

/-- divsufsort_ssort.hpp:715-727: delivers `a`, `i` and the array -/
def ssBlocks (sm : SwapMerge) (T : List UInt8) (PA : Int) (middle last buf bufsize : Nat) : Nat → Nat → Nat → List Int → Res (Nat × Nat × List Int)
  | 0, _, _, _ => .error .loop
  | fuel + 1, a, i, B =>
    if 1024 < middle - a then
      (ssMintro2 cell T PA a (a + 1024) B).bind fun B =>
      (if last - (a + 1024) ≤ bufsize then ssCarry sm buf bufsize (i + 1) a 1024 i B                                -- :721-723
       else ssCarry sm (a + 1024) (last - (a + 1024)) (i + 1) a 1024 i B).bind fun B =>
      ssBlocks sm T PA middle last buf bufsize fuel (a + 1024) (i + 1) B
    else .ok (a, i, B)

/-- divsufsort_ssort.hpp:733-738 -/
def ssFinish (sm : SwapMerge) (middle buf bufsize : Nat) : Nat → Nat → Nat → Nat → List Int → Res (List Int)
  | 0, _, _, _, _ => .error .loop
  | fuel + 1, a, k, i, B =>
    if i ≠ 0 then
      if i % 2 = 1 then (sm B (a - k) a middle buf bufsize).bind fun B => ssFinish sm middle buf bufsize fuel (a - k) (2 * k) (i / 2) B
      else ssFinish sm middle buf bufsize fuel a (2 * k) (i / 2) B
    else .ok B

/-- divsufsort_ssort.hpp:715-738: `[first, middle)` -/
def ssMain (sm : SwapMerge) (T : List UInt8) (PA : Int) (first middle last buf bufsize : Nat) (B : List Int) : Res (List Int) :=
  (ssBlocks cell sm T PA middle last buf bufsize (middle - first + 1) first 0 B).bind fun (a, i, B) =>
  (ssMintro2 cell T PA a middle B).bind fun B => ssFinish sm middle buf bufsize (i + 1) a 1024 i B

/-- divsufsort_ssort.hpp:707-747: `buf` and `bufsize` are the arguments -/
def ssRange (sm : SwapMerge) (T : List UInt8) (PA : Int) (first last buf bufsize : Nat) (B : List Int) : Res (List Int) :=
  if bufsize < 1024 ∧ bufsize < last - first ∧ bufsize < ssIsqrt (last - first) then
    let limit := min 1024 (ssIsqrt (last - first))
    let middle := last - limit                                                                                     -- :711
    (ssMain cell sm T PA first middle last middle limit B).bind fun B =>
    (ssMintro2 cell T PA middle last B).bind fun B =>
    ssInplacemerge cell T PA 2 (last - middle + 1) first middle last B                                             -- :745
  else ssMain cell sm T PA first last last buf bufsize B

/-- divsufsort_ssort.hpp:690-759 `sssort` with `depth = 2`, `buf = m`, `bufsize = n - 2 * m` (divsufsort.hpp:99-117) -/
def sssort (sm : SwapMerge) (T : List UInt8) (n m : Int) : SubSort := fun B first last lastsuffix =>
  let PA := n - m
  let first' := if lastsuffix then first + 1 else first                                                            -- :702
  (ssRange cell sm T PA first'.toNat last.toNat m.toNat (n - 2 * m).toNat B).bind fun B =>
  if lastsuffix then                                                                                               -- :749-757
    (sget B (first' - 1)).bind fun i => (sget B (PA + i)).bind fun s1 =>
    (ssInsertLast cell T PA 2 n s1 (last - first').toNat first' B).bind fun (a, B) => sset cell B (a - 1) i
  else .ok B

end Tdc.DSS
