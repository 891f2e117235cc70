import Verif.Model.TextDSObj
import Verif.Spec.Suffix

/-!
# What the text index structures must answer

`get i` is the `i`-th entry a client reads. Entry `0` of the LCP array has a condition of its own.
-/

namespace Tdc
namespace TObj

/-- The entries of the structure `x` of `text`, whose suffixes in order start at the positions `sa`. -/
def Reads (text : List UInt8) (sa : List Nat) (x : DS) (get : Nat → Res Nat) : Prop :=
  match x with
  | .sa => ∀ k s : Nat, sa[k]? = some s → get k = .ok s
  | .isa => ∀ k s : Nat, sa[k]? = some s → get s = .ok k
  | .lcp => ∀ k i j : Nat, sa[k + 1]? = some i → sa[k]? = some j → get (k + 1) = .ok (lcpLen (text.drop i) (text.drop j))
  | .phi => (∀ k i j : Nat, sa[k + 1]? = some i → sa[k]? = some j → get i = .ok j) ∧
      ∀ i j : Nat, sa[0]? = some i → sa[text.length - 1]? = some j → get i = .ok j
  | .plcp => ∀ k i j : Nat, sa[k + 1]? = some i → sa[k]? = some j → get i = .ok (lcpLen (text.drop i) (text.drop j))

/-- `m` is the largest entry of the LCP array. -/
def IsMaxLcp (text : List UInt8) (sa : List Nat) (m : Nat) : Prop :=
  (∀ k i j : Nat, sa[k + 1]? = some i → sa[k]? = some j → lcpLen (text.drop i) (text.drop j) ≤ m) ∧
  (m = 0 ∨ ∃ k i j : Nat, sa[k + 1]? = some i ∧ sa[k]? = some j ∧ lcpLen (text.drop i) (text.drop j) = m)

end TObj
end Tdc
