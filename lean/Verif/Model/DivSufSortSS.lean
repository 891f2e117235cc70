import Verif.Model.DivSufSortMid

/-!
# Sorting a bucket of B* substrings

util/divsufsort/divsufsort_ssort.hpp:92-135, 749-757.  The comparison, the insertion sort, and the insertion of the last B* suffix.
-/

namespace Tdc.DSS

variable (cell : Int → Int)

/-- divsufsort_ssort.hpp:101-111: the loop and the result; `d = U1n - U1`, `e2 = U2n` -/
def ssCmpLoop (T : List UInt8) (e2 : Int) : Nat → Int → Int → Res Int
  | 0, _, u2 => .ok (if u2 < e2 then -1 else 0)                                             -- :109-111
  | d + 1, u1, u2 =>
    if u2 < e2 then                                                                         -- :105
      (tget T u1).bind fun a => (tget T u2).bind fun b =>
      if a = b then ssCmpLoop T e2 d (u1 + 1) (u2 + 1) else .ok ((a : Int) - (b : Int))     -- :106, 110
    else .ok 1                                                                              -- :110

/-- divsufsort_ssort.hpp:94-112 `ss_compare`; `s` and `e` are the two cells of each operand -/
def ssCompare (T : List UInt8) (s1 e1 s2 e2 depth : Int) : Res Int :=
  ssCmpLoop T (e2 + 2) ((e1 + 2) - (depth + s1)).toNat (depth + s1) (depth + s2)

/-- `ss_compare(T, B, PA + t, B, PA + v, depth)` -/
def ssCompareAt (T : List UInt8) (PA : Int) (B : List Int) (t v depth : Int) : Res Int :=
  (sget B (PA + t)).bind fun s1 => (sget B (PA + v)).bind fun s2 => (sget B (PA + t + 1)).bind fun e1 => (sget B (PA + v + 1)).bind fun e2 =>
  ssCompare T s1 e1 s2 e2 depth

/-- divsufsort_ssort.hpp:130: `do { B[j - 1] = B[j]; } while((++j < last) && (B[j] < 0));` with `j + d + 1 = last` -/
def ssShift : Nat → Int → List Int → Res (Int × List Int)
  | d, j, B =>
    (sget B j).bind fun v => (sset cell B (j - 1) v).bind fun B =>
    match d with
    | 0 => .ok (j + 1, B)
    | d + 1 => (sget B (j + 1)).bind fun w => if w < 0 then ssShift d (j + 1) B else .ok (j + 1, B)

/-- divsufsort_ssort.hpp:129-132: the inner loop; delivers `r`, `j` and the array. More rounds than there are cells cannot happen. -/
def ssInner (T : List UInt8) (PA depth last t : Int) : Nat → Int → List Int → Res (Int × Int × List Int)
  | 0, _, _ => .error .loop
  | fuel + 1, j, B =>
    (sget B j).bind fun v => (ssCompareAt T PA B t v depth).bind fun r =>
    if 0 < r then
      (ssShift cell (last - j - 1).toNat j B).bind fun (j, B) => if last ≤ j then .ok (r, j, B) else ssInner T PA depth last t fuel j B
    else .ok (r, j, B)

/-- divsufsort_ssort.hpp:128-135: `d` rounds left, `i = first + d - 1` -/
def ssOuter (T : List UInt8) (PA depth first last : Int) : Nat → List Int → Res (List Int)
  | 0, B => .ok B
  | d + 1, B =>
    let i : Int := first + d
    (sget B i).bind fun t => (ssInner cell T PA depth last t (last - i).toNat (i + 1) B).bind fun (r, j, B) =>
    (if r = 0 then (sget B j).bind fun v => sset cell B j (inv v) else .ok B).bind fun B =>              -- :133
    (sset cell B (j - 1) t).bind fun B => ssOuter T PA depth first last d B                              -- :134

/-- divsufsort_ssort.hpp:121-136 `ss_insertionsort` -/
def ssInsertionsort (T : List UInt8) (PA depth first last : Int) (B : List Int) : Res (List Int) :=
  ssOuter cell T PA depth first last (last - first - 1).toNat B

/-- divsufsort_ssort.hpp:752-756: `d = last - a`; `s1` is `PAi[0]`, `n - 2` is `PAi[1]`; delivers `a` -/
def ssInsertLast (T : List UInt8) (PA depth n s1 : Int) : Nat → Int → List Int → Res (Int × List Int)
  | 0, a, B => .ok (a, B)
  | d + 1, a, B =>
    (sget B a).bind fun v =>
    (if v < 0 then .ok true else
      (sget B (PA + v)).bind fun s2 => (sget B (PA + v + 1)).bind fun e2 => (ssCompare T s1 (n - 2) s2 e2 depth).bind fun r => .ok (decide (0 < r))).bind fun go =>
    if go then (sset cell B (a - 1) v).bind fun B => ssInsertLast T PA depth n s1 d (a + 1) B else .ok (a, B)

end Tdc.DSS
