import Verif.Model.LFSTree

/-!
# What is assumed of a suffix tree

`label v` is the string spelled on the path from the root to the inner node `v`.
-/

namespace Tdc
namespace Lfs

/-- every string in the tree is where the tree says it is -/
structure SoundTree (T : List UInt8) (t : Tree) (label : Nat → List UInt8) : Prop where
  depth : ∀ (v : Nat) (nd : Inner), t.nodes[v]? = some nd → (label v).length = nd.depth
  leaf : ∀ (v : Nat) (nd : Inner) (p : Nat), t.nodes[v]? = some nd → Kid.leaf p ∈ nd.kids → label v <+: T.drop p
  node : ∀ (v : Nat) (nd : Inner) (c : Nat), t.nodes[v]? = some nd → Kid.node c ∈ nd.kids → c < t.nodes.length ∧ label v <+: label c
  order : ∀ v ∈ t.order, v < t.nodes.length

/-- the inner nodes form a tree, and all but the root are visited; entries of depth 0 are the root and unused ones -/
structure ProperTree (t : Tree) : Prop where
  kids : ∀ (v : Nat) (nd : Inner), t.nodes[v]? = some nd → 0 < nd.depth → nd.kids ≠ []
  deeper : ∀ (v : Nat) (nd : Inner) (c : Nat) (nc : Inner), t.nodes[v]? = some nd → Kid.node c ∈ nd.kids → t.nodes[c]? = some nc → nc.up = nd.depth ∧ nd.depth < nc.depth
  parent : ∀ (u v : Nat) (nu nv : Inner) (c : Nat), t.nodes[u]? = some nu → t.nodes[v]? = some nv → Kid.node c ∈ nu.kids → Kid.node c ∈ nv.kids → u = v
  child : ∀ (c : Nat) (nc : Inner), t.nodes[c]? = some nc → 0 < nc.depth → ∃ (v : Nat) (nd : Inner), t.nodes[v]? = some nd ∧ Kid.node c ∈ nd.kids
  all : ∀ (v : Nat) (nd : Inner), t.nodes[v]? = some nd → 0 < nd.depth → v ∈ t.order

end Lfs
end Tdc
