/-!
# Decompositions into monotone subsequences
-/

namespace Tdc
namespace Esp

/-- `dpi` names for every index of `sis` the subsequence it belongs to; subsequence `k` is not empty, ascending if `b[k]` is `false`, descending if `true`. -/
structure Decomp (sis dpi : List Nat) (b : List Bool) : Prop where
  len : dpi.length = sis.length
  lt : ∀ i k : Nat, dpi[i]? = some k → k < b.length
  used : ∀ k : Nat, k < b.length → ∃ i : Nat, dpi[i]? = some k
  up : ∀ i j k si sj : Nat, i < j → dpi[i]? = some k → dpi[j]? = some k → sis[i]? = some si → sis[j]? = some sj → b[k]? = some false → si < sj
  down : ∀ i j k si sj : Nat, i < j → dpi[i]? = some k → dpi[j]? = some k → sis[i]? = some si → sis[j]? = some sj → b[k]? = some true → sj < si

/-- Subsequence `k` is as long as any monotone subsequence of the indices that do not belong to the subsequences before `k`. -/
def Longest (sis dpi : List Nat) : Prop :=
  ∀ (k : Nat) (S : List Nat), S.Pairwise (· < ·) → (∀ i ∈ S, ∃ m : Nat, dpi[i]? = some m ∧ k ≤ m) →
    (S.Pairwise (fun i j => sis[i]?.getD 0 < sis[j]?.getD 0) ∨ S.Pairwise (fun i j => sis[j]?.getD 0 < sis[i]?.getD 0)) →
    S.length ≤ ((List.range dpi.length).filter fun i => dpi[i]? = some k).length

/-- A strategy decomposes every permutation of `0, …, n - 1` with `0 < n < N`. -/
def Decomposes (N : Nat) {E : Type} (f : List Nat → Except E (List Nat × List Bool)) : Prop :=
  ∀ sis : List Nat, sis.Perm (List.range sis.length) → sis ≠ [] → sis.length < N → ∃ dpi b, f sis = .ok (dpi, b) ∧ Decomp sis dpi b

end Esp
end Tdc
