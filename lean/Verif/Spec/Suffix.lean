/-!
# Specification vocabulary: suffixes, suffix arrays, longest common prefixes

Nothing here models code. `<` on byte strings is the lexicographic order of `List` (a proper prefix is smaller).
-/

namespace Tdc

/-- A text that ends with its only zero byte. -/
def Sentinel (text : List UInt8) : Prop := ∃ u, text = u ++ [0] ∧ (0 : UInt8) ∉ u

/-- `sa` lists the starting positions of all suffixes in strictly increasing lexicographic order. -/
structure IsSA (text : List UInt8) (sa : List Nat) : Prop where
  length : sa.length = text.length
  lt : ∀ s ∈ sa, s < text.length
  sorted : ∀ (i j s t : Nat), i < j → sa[i]? = some s → sa[j]? = some t → text.drop s < text.drop t

/-- length of the longest common prefix -/
def lcpLen : List UInt8 → List UInt8 → Nat
  | a :: as, b :: bs => if a = b then lcpLen as bs + 1 else 0
  | _, _ => 0

/-- length of the longest previous factor: the longest prefix of suffix `i` that also occurs starting at a smaller position -/
def lpf (text : List UInt8) (i : Nat) : Nat :=
  ((List.range i).map fun j => lcpLen (text.drop j) (text.drop i)).foldl max 0

end Tdc
