import Verif.Spec.Factors

/-!
# Specification vocabulary: the factorization of `lcpcomp`

A text is factorized by repeatedly replacing the longest remaining copy. Copies are taken from the lexicographically preceding suffix.
-/

namespace Tdc

/-- position `x` is replaced by a factor -/
def Covered (fs : List Factor) (x : Nat) : Prop := ∃ f ∈ fs, f.pos ≤ x ∧ x < f.pos + f.len

/-- The `l` characters at `q` agree with those at `j`, the start of the lexicographically preceding suffix, and no factor
of `fs` has replaced any of them. -/
def Available (text : List UInt8) (sa : List Nat) (fs : List Factor) (q j l : Nat) : Prop :=
  (∃ k, sa[k + 1]? = some q ∧ sa[k]? = some j) ∧ l ≤ lcpLen (text.drop q) (text.drop j) ∧
    ∀ x, q ≤ x → x < q + l → ¬ Covered fs x

/-- `LcpGreedy text sa threshold pre fs`: after the factors `pre`, the list `fs` takes a longest available copy again and again until
no copy of length `threshold` is left. -/
def LcpGreedy (text : List UInt8) (sa : List Nat) (threshold : Nat) : List Factor → List Factor → Prop
  | pre, [] => ∀ q j l, Available text sa pre q j l → l < threshold
  | pre, f :: fs =>
    Available text sa pre f.pos f.src f.len ∧ threshold ≤ f.len ∧
    (∀ q j l, threshold ≤ l → Available text sa pre q j l → l ≤ f.len) ∧
    LcpGreedy text sa threshold (pre ++ [f]) fs

/-- no source lies completely inside of what one factor replaces -/
def Flat (fs : List Factor) : Prop :=
  ∀ f ∈ fs, ∀ s ∈ fs, ¬ (s.pos ≤ f.src ∧ f.src < s.pos + s.len ∧ f.src + f.len ≤ s.pos + s.len)

end Tdc
