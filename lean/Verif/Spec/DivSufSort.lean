/-!
# Specification vocabulary: B* suffixes

Nothing here models code.
-/

namespace Tdc

/-- The suffix at `i` is smaller than the next suffix, which is not smaller than its next one (or is empty). -/
def IsBStar (text : List UInt8) (i : Nat) : Prop := text.drop i < text.drop (i + 1) ∧ ¬ text.drop (i + 1) < text.drop (i + 2)

instance (text : List UInt8) (i : Nat) : Decidable (IsBStar text i) := inferInstanceAs (Decidable (_ ∧ _))

/-- The positions of all B* suffixes, ascending. -/
def bstars (text : List UInt8) : List Nat := (List.range text.length).filter fun i => decide (IsBStar text i)

/-- The array holds, after its first `m` cells, for each B* suffix in the order of the positions its rank among the B* suffixes (`m` is the number
of B* suffixes). -/
structure BStarsRanked (text : List UInt8) (mid : List Int) : Prop where
  length : mid.length = text.length
  ranks : ∀ (j x : Nat), (bstars text)[j]? = some x →
    mid[(bstars text).length + j]? = some ((bstars text).countP (fun y => decide (text.drop y < text.drop x)) : Int)

/-- The substring of the B* suffix with the number `i`: up to and including the first two characters of the next B* suffix; the last one reaches to the
end of the text. -/
def bkey (text : List UInt8) (i : Nat) : List UInt8 :=
  match (bstars text)[i]?, (bstars text)[i + 1]? with
  | some s, some e => (text.drop s).take (e + 2 - s)
  | some s, none => text.drop s
  | none, _ => []

end Tdc
