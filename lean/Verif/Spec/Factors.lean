import Verif.Model.LZSSCoding
import Verif.Spec.Suffix

/-!
# Specification vocabulary: factorizations of a text

A factor `⟨pos, src, len⟩` says that `len` characters at `pos` are copied from `src`.
-/

namespace Tdc

/-- factors are sorted, do not overlap and lie in a text of length `n`; their sources are text positions -/
def FactorsOrdered (n : Nat) : Nat → List Factor → Prop
  | p, [] => p ≤ n
  | p, f :: fs => p ≤ f.pos ∧ f.src ≤ n ∧ f.pos + f.len ≤ n ∧ FactorsOrdered n (f.pos + f.len) fs

/-- factors copy the right characters from strictly smaller positions -/
def FactorsMatch (text : List UInt8) (fs : List Factor) : Prop :=
  ∀ f ∈ fs, f.src < f.pos ∧ ∀ i, i < f.len → text[f.src + i]? = text[f.pos + i]?

/-- Factors that can be resolved although they may point to either side: they copy the right characters, and no character depends
on itself: there is a ranking of the positions in which every copied character comes after its source. -/
structure Resolvable (text : List UInt8) (fs : List Factor) : Prop where
  eq : ∀ f ∈ fs, ∀ k, k < f.len → text[f.src + k]? = text[f.pos + k]?
  acyclic : ∃ rank : Nat → Nat, ∀ f ∈ fs, ∀ k, k < f.len → rank (f.src + k) < rank (f.pos + k)

/-- The greedy longest-previous-factor parsing of `t` from position `p` on. -/
def GreedyLPF (t : List UInt8) (threshold : Nat) : Nat → List Factor → Prop
  | p, [] => ∀ i, p ≤ i → i + 1 < t.length → lpf t i < threshold
  | p, f :: fs =>
    (p ≤ f.pos ∧ ∀ i, p ≤ i → i < f.pos → lpf t i < threshold) ∧
    (f.pos + 1 < t.length ∧ threshold ≤ f.len ∧ f.len = lpf t f.pos) ∧
    (f.src < f.pos ∧ f.len = lcpLen (t.drop f.src) (t.drop f.pos)) ∧
    GreedyLPF t threshold (f.pos + f.len) fs

end Tdc
