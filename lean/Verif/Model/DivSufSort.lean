import Verif.Model.Basic

/-!
# Suffix sorting: divsufsort

util/divsufsort.hpp.  Modelled: the classification of the suffixes and the bucket arrays (`sort_typeBstar`, first and last part), the
placement of the sorted B* suffixes, and `construct_SA`.  Not modelled: the sorting of the B* suffixes themselves (`sssort`, `trsort`
and the computation of the ranks between them, :92-124); what they leave in the array is a parameter, `mid`.

Simplifications: `saidx_t` is `Int` (all values lie between `-n` and `n`, which is below `2^31` or `2^63`); loops which scan the text from
right to left are recursions over the reversed rest of the text, the position being its length; a loop `for(; i <= j; --j)` is a recursion
over the number of its iterations; the bucket arrays are functions on the indices.  Accesses to the suffix array and the text outside
their bounds are errors.
-/

namespace Tdc.DSS

/-- `~s` -/
def inv (s : Int) : Int := -s - 1

/-- `SA[i]`, read -/
def sget (SA : List Int) (i : Int) : Res Int :=
  if 0 ≤ i then
    match SA[i.toNat]? with
    | some v => .ok v
    | none => .error .ub
  else .error .ub

variable (cell : Int → Int)

/-- `SA[i] = v`; `cell v` is what is read after `v` was stored. -/
def sset (SA : List Int) (i : Int) (v : Int) : Res (List Int) :=
  if 0 ≤ i ∧ i.toNat < SA.length then .ok (SA.set i.toNat (cell v)) else .error .ub

/-- `T[i]` -/
def tget (T : List UInt8) (i : Int) : Res Nat :=
  if 0 ≤ i then
    match T[i.toNat]? with
    | some c => .ok c.toNat
    | none => .error .ub
  else .error .ub

/-- assignment to an array -/
def upd (f : Nat → Int) (i : Nat) (v : Int) : Nat → Int := fun x => if x = i then v else f x

/-- divsufsort_private.hpp:117-118 `BUCKET_B` and `BUCKET_BSTAR`: indices into the same array -/
def bB (c0 c1 : Nat) : Nat := c1 <<< 8 ||| c0
def bS (c0 c1 : Nat) : Nat := c0 <<< 8 ||| c1

/-- `bucket_A`, `bucket_B` and the positions of the B* suffixes found so far (`SA[m..n)`). -/
structure Cnt where
  A : Nat → Int
  B : Nat → Int
  stars : List Nat

/-- divsufsort.hpp:64-76: the scan from right to left; `isB`: whether the suffix at the last position is of type B, `c1` its first
character, the list the reversed rest of the text. -/
def count (isB : Bool) (c1 : Nat) : List UInt8 → Cnt → Cnt
  | [], s => s
  | c :: rest, s =>
    let c0 := c.toNat
    if isB then
      if c0 ≤ c1 then count true c0 rest { s with B := upd s.B (bB c0 c1) (s.B (bB c0 c1) + 1) }            -- :73-75
      else count false c0 rest { s with A := upd s.A c0 (s.A c0 + 1) }                                      -- :66
    else
      if c0 ≥ c1 then count false c0 rest { s with A := upd s.A c0 (s.A c0 + 1) }                           -- :66
      else count true c0 rest { s with B := upd s.B (bS c0 c1) (s.B (bS c0 c1) + 1), stars := rest.length :: s.stars }   -- :69-70

/-- divsufsort.hpp:55-76 -/
def countAll (T : List UInt8) : Cnt :=
  match T.reverse with
  | [] => ⟨fun _ => 0, fun _ => 0, []⟩
  | c :: rest => count false c.toNat rest ⟨upd (fun _ => 0) c.toNat 1, fun _ => 0, []⟩

/-- divsufsort.hpp:88-92: the inner loop over `c1`, `k` characters left -/
def starts1 (c0 : Nat) : Nat → Nat → Int → Int → (Nat → Int) → Int × Int × (Nat → Int)
  | 0, _, i, j, B => (i, j, B)
  | k + 1, c1, i, j, B =>
    let j := j + B (bS c0 c1)
    starts1 c0 k (c1 + 1) (i + B (bB c0 c1)) j (upd B (bS c0 c1) j)

/-- divsufsort.hpp:84-94: start points of the A buckets, end points of the B* buckets; `k` characters left -/
def starts : Nat → Nat → Int → Int → (Nat → Int) → (Nat → Int) → (Nat → Int) × (Nat → Int)
  | 0, _, _, _, A, B => (A, B)
  | k + 1, c0, i, j, A, B =>
    let t := i + A c0
    let A := upd A c0 (i + j)
    let (i, j, B) := starts1 c0 k (c0 + 1) (t + B (bB c0 c0)) j B
    starts k (c0 + 1) i j A B

/-- divsufsort.hpp:98-105: distribution of the B* suffixes; only the effect on the bucket array (end points become start points).  The last
one comes last. -/
def spread (T : List UInt8) : List Nat → (Nat → Int) → Res (Nat → Int)
  | [], B => .ok B
  | t :: ts, B =>
    (tget T t).bind fun c0 => (tget T (t + 1)).bind fun c1 => spread T ts (upd B (bS c0 c1) (B (bS c0 c1) - 1))

/-- divsufsort.hpp:139 -/
def put (m : Int) (t : Nat) (i : Int) (j : Int) (SA : List Int) : Res (List Int) :=
  (sget SA (m + (j - 1))).bind fun r => sset cell SA r (if t = 0 ∨ 1 < (t : Int) - i then t else inv t)

/-- divsufsort.hpp:133-141: set the sorted order; `pend`: the B* suffix whose run of type B suffixes is being scanned. -/
def setOrder (m : Int) : Option Nat → Nat → List UInt8 → Int → List Int → Res (List Int)
  | none, _, [], _, SA => .ok SA
  | none, c1, c :: rest, j, SA =>
    if c.toNat ≥ c1 then setOrder m none c.toNat rest j SA
    else setOrder m (some rest.length) c.toNat rest j SA
  | some t, _, [], j, SA => put cell m t (-1) j SA
  | some t, c1, c :: rest, j, SA =>
    if c.toNat ≤ c1 then setOrder m (some t) c.toNat rest j SA
    else (put cell m t rest.length j SA).bind fun SA => setOrder m none c.toNat rest (j - 1) SA

/-- divsufsort.hpp:152-155: move the suffixes of one B* bucket; `r` iterations -/
def moveRun : Nat → Int → Int → List Int → Res (Int × Int × List Int)
  | 0, i, k, SA => .ok (i, k, SA)
  | r + 1, i, k, SA =>
    (sget SA k).bind fun v => (sset cell SA i v).bind fun SA => moveRun r (i - 1) (k - 1) SA

/-- divsufsort.hpp:147-156: the loop over `c1` from `255`; `d` iterations left, `c1 = c0 + d` -/
def moveIn (c0 : Nat) : Nat → Int → Int → (Nat → Int) → List Int → Res (Int × Int × (Nat → Int) × List Int)
  | 0, i, k, B, SA => .ok (i, k, B, SA)
  | d + 1, i, k, B, SA =>
    let c1 := c0 + (d + 1)
    let t := i - B (bB c0 c1)
    let B := upd B (bB c0 c1) i
    (moveRun cell (k - B (bS c0 c1) + 1).toNat t k SA).bind fun (i, k, SA) => moveIn c0 d i k B SA

/-- divsufsort.hpp:145-159: `d` iterations left, `c0 = d - 1` -/
def moveAll (A : Nat → Int) : Nat → Int → (Nat → Int) → List Int → Res ((Nat → Int) × List Int)
  | 0, _, B, SA => .ok (B, SA)
  | c0 + 1, k, B, SA =>
    (moveIn cell c0 (255 - c0) (A (c0 + 1) - 1) k B SA).bind fun (i, k, B, SA) =>
      let B := upd B (bS c0 (c0 + 1)) (i - B (bB c0 c0) + 1)
      let B := upd B (bB c0 c0) i
      moveAll A c0 k B SA

/-- The registers of the scans of `construct_SA`: `k`, and `c2`, which is `none` for -1. -/
structure Scan where
  k : Int
  c2 : Option Nat

/-- divsufsort.hpp:180-206: the scan of one bucket from right to left; `r` iterations left -/
def scanB (T : List UInt8) (c1 : Nat) : Nat → Int → Scan → (Nat → Int) → List Int → Res ((Nat → Int) × List Int)
  | 0, _, _, B, SA => .ok (B, SA)
  | r + 1, j, q, B, SA =>
    (sget SA j).bind fun s =>
    if 0 < s then
      (sset cell SA j (inv s)).bind fun SA =>
      (tget T (s - 1)).bind fun c0 =>
      (if 0 < s - 1 then (tget T (s - 2)).bind fun c => .ok (if c > c0 then inv (s - 1) else s - 1) else .ok (s - 1)).bind fun v =>
      let (q, B) := if q.c2 = some c0 then (q, B) else
        let B := match q.c2 with
          | some c2 => upd B (bB c2 c1) q.k
          | none => B
        (⟨B (bB c0 c1), some c0⟩, B)
      (sset cell SA q.k v).bind fun SA => scanB T c1 r (j - 1) { q with k := q.k - 1 } B SA
    else
      (sset cell SA j (inv s)).bind fun SA => scanB T c1 r (j - 1) q B SA

/-- divsufsort.hpp:177-208: `d` iterations left, `c1 = d - 1` -/
def constructB (T : List UInt8) (A : Nat → Int) : Nat → (Nat → Int) → List Int → Res ((Nat → Int) × List Int)
  | 0, B, SA => .ok (B, SA)
  | c1 + 1, B, SA =>
    (scanB cell T c1 (A (c1 + 1) - 1 - B (bS c1 (c1 + 1)) + 1).toNat (A (c1 + 1) - 1) ⟨-1, none⟩ B SA).bind fun (B, SA) => constructB T A c1 B SA

/-- divsufsort.hpp:216-232: the scan from left to right; `r` iterations left -/
def scanA (T : List UInt8) : Nat → Int → Int → Nat → (Nat → Int) → List Int → Res (List Int)
  | 0, _, _, _, _, SA => .ok SA
  | r + 1, i, k, c2, A, SA =>
    (sget SA i).bind fun s =>
    if 0 < s then
      (tget T (s - 1)).bind fun c0 =>
      (if s - 1 = 0 then .ok (inv (s - 1)) else (tget T (s - 2)).bind fun c => .ok (if c < c0 then inv (s - 1) else s - 1)).bind fun v =>
      let (k, A) := if c0 ≠ c2 then
        let A := upd A c2 k
        (A c0, A) else (k, A)
      (sset cell SA k v).bind fun SA => scanA T r (i + 1) (k + 1) c0 A SA
    else
      (sset cell SA i (inv s)).bind fun SA => scanA T r (i + 1) k c2 A SA

/-- divsufsort.hpp:167-233 `construct_SA` -/
def constructSA (T : List UInt8) (A B : Nat → Int) (m : Int) (SA : List Int) : Res (List Int) :=
  (if 0 < m then (constructB cell T A 255 B SA).bind fun (_, SA) => .ok SA else .ok SA).bind fun SA =>
  (tget T (T.length - 1)).bind fun c2 =>
  (tget T (T.length - 2)).bind fun c =>
  (sset cell SA (A c2) (if c < c2 then inv (T.length - 1) else T.length - 1)).bind fun SA =>
  scanA cell T T.length 0 (A c2 + 1) c2 A SA

/-- divsufsort.hpp:126-160: the part of `sort_typeBstar` after the B* suffixes are sorted -/
def place (T : List UInt8) (A B : Nat → Int) (m : Nat) (SA : List Int) : Res ((Nat → Int) × List Int) :=
  match T.reverse with
  | [] => .error .ub
  | c :: rest =>
    (setOrder cell m none c.toNat rest m SA).bind fun SA => moveAll cell A 255 ((m : Int) - 1) (upd B (bB 255 255) T.length) SA

/-- divsufsort.hpp:46-163, 236-246 `divsufsort_run`; `mid` is the array after `trsort`. -/
def run (T : List UInt8) (mid : List Int) : Res (List Int) :=
  let c := countAll T
  let m := c.stars.length
  let (A, B) := starts 256 0 0 0 c.A c.B
  if 0 < m then
    (spread T (c.stars.dropLast.reverse ++ c.stars.getLast?.toList) B).bind fun B =>
    (place cell T A B m mid).bind fun (B, SA) => constructSA cell T A B m SA
  else constructSA cell T A B 0 mid

/-- divsufsort.hpp:260-287 `divsufsort`.  (For one or two characters the buffer is written without the wrapper: the values 0 and 1 are the same with
and without it.) -/
def divsufsort (T : List UInt8) (mid : List Int) : Res (List Int) :=
  match T with
  | [] => .ok mid
  | [_] => sset cell mid 0 0
  | [a, b] => (sset cell mid (if a < b then 0 else 1) 0).bind fun SA => sset cell SA (if a < b then 1 else 0) 1
  | T => run cell T mid

/-! ### The buffer: `BufferWrapper<DynamicIntVector>`, divsufsort_bufwrapper.hpp:38-78 -/

/-- :51-53 `to_unsigned`: `(uint64_t(int64_t(v)) << shift) >> shift` with `shift = 64 - width` -/
def toUnsigned (W : Nat) (v : Int) : BitVec 64 := (BitVec.ofInt 64 v <<< (64 - W)) >>> (64 - W)

/-- :45-49 `to_signed`: `shift_by(shift_by(int64_t(v), shift), -shift)`, util.hpp:573-587, with an arithmetic shift to the right -/
def toSigned (W : Nat) (x : BitVec 64) : Int := ((x <<< (64 - W)).sshiftRight (64 - W)).toInt

/-- What is read after `v` was stored in a vector of width `W`, which keeps the `W` lower bits (IntVector.hpp). -/
def wrapCell (W : Nat) (v : Int) : Int := toSigned W (BitVec.ofNat 64 ((toUnsigned W v).toNat % 2 ^ W))

end Tdc.DSS
