import Verif.Lemmas.TreeViews
import Verif.Props.LFS2

/-!
# Property C54: the suffix trees of ds/SuffixTree.hpp and ds/BinarySuffixTree.hpp

What a suffix tree is, is said in `Spec/SuffixTreeDef.lean`.
-/

namespace Tdc

/-- **C54 (`SuffixTree`).** Whatever strings are appended in whatever pieces, all accesses are valid, and afterwards the object is the implicit suffix
tree of the text appended so far; if the last character of that text occurs once, it is the suffix tree.  `ks` is any iteration order of the maps. -/
theorem suffixTree_correct (xs : List (List UInt8)) : ∃ o, Ukk.appends xs Ukk.empty = .ok o ∧ o.text = xs.flatten ∧ ∀ ks, Ukk.Iterates ks o.s →
    (Ukk.reader ks o.s).Safe o.text (o.s.last + 1) ∧ IsImplicitSuffixTree o.text ((Ukk.reader ks o.s).view o.text) ∧
    (UniqueEnd o.text → IsSuffixTree o.text ((Ukk.reader ks o.s).view o.text)) := by
  obtain ⟨o, lab, j, h1, h2, h3⟩ := Ukk.appends_ok xs Ukk.empty _ _ Ukk.init_done
  refine ⟨o, h1, h2, fun ks hk => ⟨Ukk.reader_safe h3.ti hk, ?_, fun hu => ?_⟩⟩
  · exact Ukk.isImplicit h3.ti h3.inTree (Ukk.reader_shows h3.ti hk)
  · exact Ukk.isSuffixTree h3.ti h3.inTree hu (Ukk.reader_shows h3.ti hk)

/-- the root has a child -/
theorem root_kid {T : List UInt8} {lab : Nat → List UInt8} {j : Nat} {s : Ukk.S} (hT : 0 < T.length) (h : Ukk.Done T lab j s) : ∃ ch c, s.kid 0 ch = some c := by
  obtain ⟨l, h1, h2⟩ := Ukk.suffix_in h.ti h.inTree 0 hT
  have hne : (0 : Nat) ≠ l := by
    rintro rfl
    rw [h.ti.root] at h1
    cases h1
  obtain ⟨ch, c, h3, -⟩ := h.ti.comp 0 l h.ti.root (Ukk.leaf_ne h1) hne (by rw [h.ti.lab0]; exact List.nil_prefix)
  exact ⟨ch, c, h3⟩

/-- **C54 (`BinarySuffixTree`).** For every text of at least two characters no array is accessed out of bounds, and the object is the implicit suffix
tree of the text; if the last character occurs once, it is the suffix tree. -/
theorem binarySuffixTree_correct_partial (T : List UInt8) (hT : 2 ≤ T.length) : ∃ b, Bst.build T = .ok b ∧ (Bst.reader b).Safe T b.newNode ∧
    IsImplicitSuffixTree T ((Bst.reader b).view T) ∧ (UniqueEnd T → IsSuffixTree T ((Bst.reader b).view T)) := by
  obtain ⟨s, b, lab, j, h1, h2, F, G, K, r⟩ := Bst.build_sim hT
  have hK : K 0 ≠ [] := by
    obtain ⟨ch, c, hc⟩ := root_kid (by omega) h2
    intro e
    have := (r.mem 0 h2.ti.root c).2 ⟨ch, hc⟩
    rw [e] at this
    cases this
  have q := Bst.reads hT h2.ti r hK
  refine ⟨_, h1, Bst.reader_safe h2.ti r q, ?_, fun hu => ?_⟩
  · exact Ukk.isImplicit h2.ti h2.inTree (Bst.reader_shows h2.ti r q)
  · exact Ukk.isSuffixTree h2.ti h2.inTree hu (Bst.reader_shows h2.ti r q)

/-- **C54 fails for `BinarySuffixTree` and shorter texts.** The root has taken the number 1, and the arrays have two entries: the only leaf is written
behind their end.  Without any character the arrays get a negative size. -/
theorem binarySuffixTree_short_broken (c : UInt8) : Bst.build [c] = .error .ub ∧ Bst.build [] = .error .throw := by
  refine ⟨?_, rfl⟩
  simp [Bst.build, Bst.reserve, Bst.createNode, Bst.addChars, Bst.addChar, Bst.loop, Bst.body, Bst.body', Bst.setEdge, Bst.find, Bst.addLeaf, vget, vset, Except.bind]

/-! ## cases -/

/-- the iteration orders of the maps of any tree exist -/
theorem iterates_exist (s : Ukk.S) : ∃ ks, Ukk.Iterates ks s := by
  refine ⟨fun v => ((List.range 256).map UInt8.ofNat).filter fun ch => (s.kid v ch).isSome, fun v _ => ⟨?_, fun ch => ?_⟩⟩
  · refine List.Nodup.filter _ ?_
    rw [List.nodup_iff_pairwise_ne, List.pairwise_map]
    refine List.Pairwise.imp_of_mem ?_ List.nodup_range
    intro a b ha hb hab e
    rw [List.mem_range] at ha hb
    have := congrArg UInt8.toNat e
    rw [UInt8.toNat_ofNat_of_lt' (by omega), UInt8.toNat_ofNat_of_lt' (by omega)] at this
    exact hab this
  · rw [List.mem_filter]
    constructor
    · exact fun h => h.2
    · intro h
      refine ⟨List.mem_map.2 ⟨ch.toNat, ?_, by simp⟩, h⟩
      rw [List.mem_range]
      exact ch.toNat_lt

/-- the tree of `abab$`: the root is node 0, `ab` is node 4, `b` is node 6, node 1 is not used -/
example : (Bst.build [97, 98, 97, 98, 0]).bind (fun b => Lfs.treeOf (Bst.reader b) b.newNode 5) = .ok
    ⟨[⟨0, 0, [.node 4, .node 6, .leaf 4]⟩, ⟨0, 0, []⟩, ⟨0, 0, []⟩, ⟨0, 0, []⟩, ⟨2, 0, [.leaf 0, .leaf 2]⟩, ⟨0, 0, []⟩, ⟨1, 0, [.leaf 1, .leaf 3]⟩, ⟨0, 0, []⟩,
      ⟨0, 0, []⟩], [0, 4, 6]⟩ := by decide +kernel

end Tdc
