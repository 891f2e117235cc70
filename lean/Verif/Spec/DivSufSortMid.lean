import Verif.Model.Basic
import Verif.Spec.DivSufSort

/-!
# Specification vocabulary: what the two sorting procedures of divsufsort have to do

Nothing here models code.
-/

namespace Tdc

/-- What stands at place `k` of a sorted bucket: the number, complemented if the substring is the same as that of the number before. -/
def marked (text : List UInt8) (js : List Nat) (k : Nat) : Option Int :=
  js[k]?.map fun x => if 0 < k ∧ js[k - 1]?.map (bkey text) = some (bkey text x) then -(x : Int) - 1 else x

/-- The contract of `sssort`. The array holds the positions of the B* suffixes in its last cells, and between `first` and `last` the numbers `is` of
different B* suffixes with the same first two characters, the last B* suffix (if it is one of them) in front, as the flag says. The numbers are sorted by
their substrings and marked; the cells behind the numbers of all B* suffixes and before the positions can be used as a buffer. -/
def SubSortOk (text : List UInt8) (sss : List Int → Int → Int → Bool → Res (List Int)) : Prop :=
  ∀ (SA : List Int) (first : Nat) (is : List Nat),
    SA.length = text.length →
    (∀ (k x : Nat), (bstars text)[k]? = some x → SA[text.length - (bstars text).length + k]? = some (x : Int)) →
    1 < is.length → is.Nodup → (∀ x ∈ is, x < (bstars text).length) → first + is.length ≤ (bstars text).length →
    (∀ x ∈ is, ∀ y ∈ is, (bkey text x).take 2 = (bkey text y).take 2) →
    ((bstars text).length - 1 ∈ is → is[0]? = some ((bstars text).length - 1)) →
    (∀ (k x : Nat), is[k]? = some x → SA[first + k]? = some (x : Int)) →
    ∃ (SA' : List Int) (js : List Nat), sss SA first ((first + is.length : Nat) : Int) (is[0]? == some ((bstars text).length - 1)) = .ok SA' ∧
      SA'.length = SA.length ∧ js.Perm is ∧ js.Pairwise (fun x y => ¬ bkey text y < bkey text x) ∧
      (∀ k, k < js.length → SA'[first + k]? = marked text js k) ∧
      (∀ p, p < first ∨ (first + is.length ≤ p ∧ p < (bstars text).length) ∨ text.length - (bstars text).length ≤ p → SA'[p]? = SA[p]?)

/-- The contract of `ss_swapmerge`. Two neighbouring parts of the array hold numbers of B* suffixes with the same first two characters (not the last B* suffix),
both sorted by the substrings, and marked. They become one. The buffer lies either behind the numbers of all B* suffixes and before the positions, or behind
the two parts and among the numbers; then what is in it comes back in any order. -/
def SwapMergeOk (text : List UInt8) (sm : List Int → Nat → Nat → Nat → Nat → Nat → Res (List Int)) : Prop :=
  ∀ (SA : List Int) (first buf bufsize : Nat) (L R : List Nat),
    SA.length = text.length →
    (∀ (k x : Nat), (bstars text)[k]? = some x → SA[text.length - (bstars text).length + k]? = some (x : Int)) →
    (∀ x ∈ L ++ R, x + 1 < (bstars text).length) → (∀ x ∈ L ++ R, ∀ y ∈ L ++ R, (bkey text x).take 2 = (bkey text y).take 2) →
    L.Pairwise (fun x y => ¬ bkey text y < bkey text x) → R.Pairwise (fun x y => ¬ bkey text y < bkey text x) →
    L ≠ [] → R ≠ [] → first + L.length + R.length ≤ (bstars text).length → 0 < bufsize →
    ((bstars text).length ≤ buf ∧ buf + bufsize ≤ text.length - (bstars text).length ∨
      first + L.length + R.length ≤ buf ∧ buf + bufsize ≤ (bstars text).length ∧ ∀ p, buf ≤ p → p < buf + bufsize → ∃ x : Nat, x < (bstars text).length ∧ SA[p]? = some (x : Int)) →
    (∀ k, k < L.length → SA[first + k]? = marked text L k) → (∀ k, k < R.length → SA[first + L.length + k]? = marked text R k) →
    ∃ (SA' : List Int) (js : List Nat), sm SA first (first + L.length) (first + L.length + R.length) buf bufsize = .ok SA' ∧
      SA'.length = SA.length ∧ js.Perm (L ++ R) ∧ js.Pairwise (fun x y => ¬ bkey text y < bkey text x) ∧
      (∀ k, k < js.length → SA'[first + k]? = marked text js k) ∧
      (∀ p, p < first ∨ first + L.length + R.length ≤ p → p < buf ∨ buf + bufsize ≤ p → SA'[p]? = SA[p]?) ∧
      (buf + bufsize ≤ (bstars text).length → ((SA'.drop buf).take bufsize).Perm ((SA.drop buf).take bufsize))

/-- the sequence `r j, …, r (m - 1)` -/
def tailSeq (r : Nat → Nat) (m j : Nat) : List Nat := (List.range' j (m - j)).map r

/-- `x` is the only number with its rank -/
def Alone (r : Nat → Nat) (m x : Nat) : Prop := ∀ y, y < m → r y = r x → y = x

/-- The input of `trsort`: the ranks `r j` behind the first `m` cells, each the last place of its group, the last number alone in its group; before them
the numbers in the order of their ranks, but a run of groups of one number begins with its negative length (the rest of the run does not matter). -/
structure RankInput (m : Nat) (r : Nat → Nat) (SA : List Int) : Prop where
  ranks : ∀ j, j < m → SA[m + j]? = some (r j : Int)
  ends : ∀ j, j < m → r j + 1 = (List.range m).countP (fun y => decide (r y ≤ r j))
  last : Alone r m (m - 1)
  order : ∃ ord : List Nat, ord.Perm (List.range m) ∧ ord.Pairwise (fun x y => r x ≤ r y) ∧
    (∀ (p x : Nat), ord[p]? = some x → ¬ Alone r m x → SA[p]? = some (x : Int)) ∧
    (∀ p l, 0 < l → p + l ≤ m → (∀ q x, p ≤ q → q < p + l → ord[q]? = some x → Alone r m x) →
      (∀ x, ord[p + l]? = some x → ¬ Alone r m x) → (∀ x, 0 < p → ord[p - 1]? = some x → ¬ Alone r m x) → SA[p]? = some (-(l : Int)))

/-- The contract of `trsort`: every rank becomes the number of smaller rests of the sequence of ranks. -/
def RankSortOk (m : Nat) (trs : List Int → Res (List Int)) : Prop :=
  ∀ (SA : List Int) (r : Nat → Nat), 2 * m ≤ SA.length → RankInput m r SA →
    ∃ SA', trs SA = .ok SA' ∧ SA'.length = SA.length ∧
      ∀ j, j < m → SA'[m + j]? = some (((List.range m).countP fun i => decide (tailSeq r m i < tailSeq r m j) : Nat) : Int)

end Tdc
