/-!
# Suffix trees

A tree as a user sees it: the children of a node, the string on the edge to a node and the number stored in a leaf.  Node 0 is the root.
-/

namespace Tdc

structure TreeView where
  kids : Nat → List Nat
  edge : Nat → List UInt8
  leaf : Nat → Option Nat

/-- the path from the root to a node spells a string -/
inductive Spells (V : TreeView) : Nat → List UInt8 → Prop
  | root : Spells V 0 []
  | step {v c : Nat} {w : List UInt8} : Spells V v w → c ∈ V.kids v → Spells V c (w ++ V.edge c)

/-- a compact tree of all substrings of `T` in which the leaves carry the numbers of suffixes -/
structure IsImplicitSuffixTree (T : List UInt8) (V : TreeView) : Prop where
  /-- reading along the edges one can read the substrings of the text and nothing else -/
  words : ∀ w, (∃ v u, Spells V v (w ++ u)) ↔ w <:+: T
  /-- it is a tree -/
  path : ∀ v w w', Spells V v w → Spells V v w' → w = w'
  point : ∀ v v' w, Spells V v w → Spells V v' w → v = v'
  nodup : ∀ v w, Spells V v w → (V.kids v).Nodup
  /-- edges are not empty and those of siblings begin with different characters -/
  edge : ∀ v w c, Spells V v w → c ∈ V.kids v → V.edge c ≠ []
  branch : ∀ v w c c', Spells V v w → c ∈ V.kids v → c' ∈ V.kids v → (V.edge c).head? = (V.edge c').head? → c = c'
  /-- inner nodes have at least two children -/
  inner : ∀ v w, Spells V v w → v ≠ 0 → V.leaf v = none → 2 ≤ (V.kids v).length
  /-- leaves stand for suffixes -/
  leaf : ∀ v w p, Spells V v w → V.leaf v = some p → V.kids v = [] ∧ p < T.length ∧ w = T.drop p

/-- the suffix tree of `T`: every suffix has a leaf -/
structure IsSuffixTree (T : List UInt8) (V : TreeView) : Prop where
  implicit : IsImplicitSuffixTree T V
  all : ∀ p, p < T.length → ∃ v w, Spells V v w ∧ V.leaf v = some p

/-- the last character occurs nowhere else -/
def UniqueEnd (T : List UInt8) : Prop := ∃ u x, T = u ++ [x] ∧ x ∉ u

end Tdc
