import Verif.Model.DivSufSort

/-!
# Suffix sorting: from the classification of the suffixes to the ranks of the B* suffixes

util/divsufsort.hpp:70, 96-130.  The two sorting procedures called there, `sssort` and `trsort`, are parameters; everything between them is modelled.
-/

namespace Tdc.DSS

variable (cell : Int → Int)

/-- divsufsort.hpp:70 `SA[--m] = i`, for all B* suffixes from right to left; the writes of the counting loop, which reads nothing of the array -/
def storeStars : List Nat → Int → List Int → Res (List Int)
  | [], _, SA => .ok SA
  | t :: ts, k, SA => (sset cell SA (k - 1) t).bind fun SA => storeStars ts (k - 1) SA

/-- divsufsort.hpp:98-105: the loop body for the numbers of the list; `PAb = n - m` -/
def spreadSA (T : List UInt8) (PAb : Int) : List Nat → (Nat → Int) → List Int → Res ((Nat → Int) × List Int)
  | [], B, SA => .ok (B, SA)
  | i :: is, B, SA =>
    (sget SA (PAb + i)).bind fun t => (tget T t).bind fun c0 => (tget T (t + 1)).bind fun c1 =>
    let B := upd B (bS c0 c1) (B (bS c0 c1) - 1)
    (sset cell SA (B (bS c0 c1)) i).bind fun SA => spreadSA T PAb is B SA

/-- `sssort(T, SA, PAb, first, last, buf, bufsize, 2, n, lastsuffix)`: the array, `first`, `last` and `lastsuffix`; the others are the same in all calls -/
abbrev SubSort := List Int → Int → Int → Bool → Res (List Int)

/-- `trsort(SA, ISAb, 0, m, 1)` -/
abbrev RankSort := List Int → Res (List Int)

/-- divsufsort.hpp:110-116: the loop over `c1` from 255; `d` iterations left, `c1 = c0 + d`. It delivers `j`. -/
def sortIn (sss : SubSort) (m : Int) (B : Nat → Int) (c0 : Nat) : Nat → Int → List Int → Res (Int × List Int)
  | 0, j, SA => .ok (j, SA)
  | d + 1, j, SA =>
    let i := B (bS c0 (c0 + (d + 1)))
    (if 1 < j - i then (sget SA i).bind fun v => sss SA i j (v == m - 1) else .ok SA).bind fun SA => sortIn sss m B c0 d i SA

/-- divsufsort.hpp:109-117: `c0` from 254, as long as `0 < j` -/
def sortAll (sss : SubSort) (m : Int) (B : Nat → Int) : Nat → Int → List Int → Res (List Int)
  | 0, j, SA => if 0 < j then .error .ub else .ok SA
  | c0 + 1, j, SA =>
    if 0 < j then (sortIn sss m B c0 (255 - c0) j SA).bind fun (j, SA) => sortAll sss m B c0 j SA else .ok SA

/-- divsufsort.hpp:123: `do { SA[ISAb + SA[i]] = i; } while((0 <= --i) && (0 <= SA[i]));`, delivers `i` -/
def posRun (m : Int) : Nat → List Int → Res (Int × List Int)
  | i, SA =>
    (sget SA i).bind fun v => (sset cell SA (m + v) i).bind fun SA =>
    match i with
    | 0 => .ok (-1, SA)
    | i + 1 => (sget SA i).bind fun w => if 0 ≤ w then posRun m i SA else .ok (i, SA)

/-- divsufsort.hpp:128: `do { SA[i] = ~SA[i]; SA[ISAb + SA[i]] = j; } while(SA[--i] < 0);`, delivers `i` -/
def negRun (m j : Int) : Nat → List Int → Res (Int × List Int)
  | i, SA =>
    (sget SA i).bind fun v => (sset cell SA i (inv v)).bind fun SA =>
    (sget SA i).bind fun u => (sset cell SA (m + u) j).bind fun SA =>
    match i with
    | 0 => .error .ub
    | i + 1 => (sget SA i).bind fun w => if w < 0 then negRun m j i SA else .ok (i, SA)

/-- divsufsort.hpp:120-130; more rounds than there are cells cannot happen -/
def rankLoop (m : Int) : Nat → Int → List Int → Res (List Int)
  | 0, _, _ => .error .loop
  | fuel + 1, i, SA =>
    if i < 0 then .ok SA else                                                                     -- :120
    (sget SA i).bind fun v =>
    (if 0 ≤ v then                                                                               -- :121
      (posRun cell m i.toNat SA).bind fun (i', SA) =>                                            -- :122-123
      (sset cell SA (i' + 1) (i' - i)).bind fun SA => .ok (i', SA)                               -- :124
    else .ok (i, SA)).bind fun (i', SA) =>
    if 0 ≤ v ∧ i' ≤ 0 then .ok SA else                                                            -- :125
    (negRun cell m i' i'.toNat SA).bind fun (i'', SA) =>                                         -- :127-128
    (sget SA i'').bind fun u => (sset cell SA (m + u) i').bind fun SA =>                         -- :129
    rankLoop m fuel (i'' - 1) SA

/-- divsufsort.hpp:55-130: the array after `trsort`, from a buffer with any content -/
def sortStars (sss : SubSort) (trs : RankSort) (T : List UInt8) (SA : List Int) : Res (List Int) :=
  let c := countAll T
  let m := c.stars.length
  (storeStars cell c.stars.reverse T.length SA).bind fun SA =>
  if 0 < m then
    (spreadSA cell T (T.length - m) ((List.range (m - 1)).reverse ++ [m - 1]) (starts 256 0 0 0 c.A c.B).2 SA).bind fun (B, SA) =>
    (sortAll sss m B 255 m SA).bind fun SA =>
    (rankLoop cell m (m + 1) (m - 1) SA).bind fun SA => trs SA
  else .ok SA

/-- divsufsort.hpp:260-287 `divsufsort`, with everything but the two sorting procedures -/
def divsufsortFull (sss : SubSort) (trs : RankSort) (T : List UInt8) (SA : List Int) : Res (List Int) :=
  if T.length ≤ 2 then divsufsort cell T SA else (sortStars cell sss trs T SA).bind fun mid => divsufsort cell T mid

end Tdc.DSS
