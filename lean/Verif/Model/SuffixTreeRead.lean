import Verif.Model.BinarySuffixTree
import Verif.Model.LFSTree
import Verif.Spec.SuffixTreeDef

/-!
# Reading the suffix trees

The accessors of ds/SuffixTree.hpp and ds/BinarySuffixTree.hpp and the traversal `compute_string_depth` of the LFS compressors.
-/

namespace Tdc

/-- what can be read of a tree: the children of a node, the beginning and the length of the string on the edge to it, the suffix if it is a leaf -/
structure Reader where
  kids : Nat → Res (List Nat)
  start : Nat → Res Nat
  len : Nat → Res Nat
  leaf : Nat → Res (Option Nat)

/-- the value of a call, `d` if it fails -/
def orElse {α : Type} (d : α) : Res α → α
  | .ok a => a
  | .error _ => d

/-- the tree a user sees who has the text `T` -/
def Reader.view (R : Reader) (T : List UInt8) : TreeView where
  kids v := orElse [] (R.kids v)
  edge v := (T.drop (orElse 0 (R.start v))).take (orElse 0 (R.len v))
  leaf v := orElse none (R.leaf v)

namespace Ukk

/-- ds/SuffixTree.hpp:59-105, 246-253: `ks v` is the order in which an iterator passes the keys of `child_nodes` of the node `v` -/
def reader (ks : Nat → List UInt8) (s : S) : Reader where
  kids v := if s.kind v = some .inner then .ok ((ks v).filterMap (s.kid v)) else if s.kind v = some .leaf then .ok [] else .error .ub
  start v := if s.kind v = none then .error .ub else .ok (s.start v)
  len v := if s.kind v = none then .error .ub else .ok (edgeLength s v)
  leaf v := if s.kind v = some .inner then .ok none else if s.kind v = some .leaf then .ok (some (s.suf v)) else .error .ub

/-- an iterator passes every key once, in whatever order -/
def Iterates (ks : Nat → List UInt8) (s : S) : Prop := ∀ v, s.kind v = some .inner → (ks v).Nodup ∧ ∀ ch, ch ∈ ks v ↔ (s.kid v ch).isSome

end Ukk

namespace Bst

/-- ds/BinarySuffixTree.hpp:297-303: `child` and its siblings -/
def children (b : B) : Nat → Nat → Res (List Nat)
  | 0, _ => .error .loop
  | fuel + 1, child => if child = 0 then .ok [] else (vget b.sib child).bind fun nx => (children b fuel nx).bind fun l => .ok (child :: l)

/-- ds/BinarySuffixTree.hpp:297-321: a node is a leaf if it has no children -/
def reader (b : B) : Reader where
  kids v := (vget b.first v).bind fun c => children b (b.newNode + 1) c
  start v := vget b.start v
  len v := edgeLength b v
  leaf v := (vget b.first v).bind fun c => if c = 0 then (vget b.suf v).bind fun p => .ok (some p) else .ok none

end Bst

namespace Lfs

/-- a child as the strategies see it -/
def kidOf (R : Reader) (c : Nat) : Res Kid := (R.leaf c).bind fun l => .ok (match l with | some p => .leaf p | none => .node c)

/-- `f` for all elements of a list -/
def each {α β : Type} (f : α → Res β) : List α → Res (List β)
  | [] => .ok []
  | a :: as => (f a).bind fun x => (each f as).bind fun xs => .ok (x :: xs)

/-- lfs/BSTStrategy.hpp:46-75, lfs/STStrategy.hpp:45-86, lfs/LFS2BSTCompressor.hpp:68-95 `compute_string_depth`: the inner nodes below `v` in the order in
which they are put into the bins; `up` is the depth of the parent.  The children are read here once, in the code also when the node is visited. -/
def walk (R : Reader) : Nat → Nat → Nat → Nat → Res (List (Nat × Inner))
  | 0, _, _, _ => .error .loop
  | fuel + 1, v, d, up =>
    (R.leaf v).bind fun l =>
      if l.isSome then .ok []
      else (R.kids v).bind fun ks => (each (kidOf R) ks).bind fun kk =>
        (each (fun c => (R.len c).bind fun e => walk R fuel c (d + e) d) ks).bind fun xs => .ok ((v, ⟨d, up, kk⟩) :: xs.flatten)

/-- the table of the inner nodes; the other numbers below `size` are not used -/
def table (size : Nat) (xs : List (Nat × Inner)) : Tree :=
  ⟨(List.range size).map fun v => ((xs.find? fun e => e.1 == v).map (·.2)).getD ⟨0, 0, []⟩, xs.map (·.1)⟩

/-- the tree of a text of `n` characters as the strategies see it; no path has more than `n + 1` nodes -/
def treeOf (R : Reader) (size n : Nat) : Res Tree := (walk R (n + 2) 0 0 0).bind fun xs => .ok (table size xs)

/-- lfs/BSTStrategy.hpp:130-134, lfs/LFS2BSTCompressor.hpp:138 -/
def bstTree (T : List UInt8) : Res Tree := (Bst.build T).bind fun b => treeOf (Bst.reader b) b.newNode T.length

/-- lfs/STStrategy.hpp:162-167 and the constructor of `SuffixTree`; `ks` gives the iteration orders of the maps -/
def stTree (ks : Nat → List UInt8) (T : List UInt8) : Res Tree := (Ukk.append T Ukk.empty).bind fun o => treeOf (Ukk.reader ks o.s) (o.s.last + 1) T.length

end Lfs
end Tdc
