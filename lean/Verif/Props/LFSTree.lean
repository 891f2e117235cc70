import Verif.Lemmas.LFSTree3
import Verif.Props.LFS

/-!
# Property C52: the suffix tree strategies of LFSCompressor

`t` is the suffix tree the strategy visits; all that is assumed of it is in `Spec/SuffixTree.lean`.
-/

namespace Tdc
namespace Lfs

open Arith (bind_ok)

/-- the three strategies -/
inductive TreeStrategy where
  | simSt
  | bst
  | st
  deriving DecidableEq, Repr

def TreeStrategy.rules : TreeStrategy → Nat → Tree → Nat → Res (List (Nat × Nat) × List (Nat × Nat × Nat))
  | .simSt => simRules
  | .bst => bstRules
  | .st => stRules

/-- lfs/LFSCompressor.hpp:55-94 with a suffix tree strategy and the option `min_lrf` -/
def compressTree (S : TreeStrategy) (minLrf : Nat) (std : StdLib) (lc : LitCoder) (c1 : UCoder) (t : Tree) (T : List UInt8) : Res (List UInt8) :=
  compressWith std lc c1 T (S.rules minLrf t T.length)

/-- what the strategy needs: `st` works for suffix trees without inner nodes of depth 400 or more -/
def Suits (T : List UInt8) (t : Tree) (label : Nat → List UInt8) : TreeStrategy → Prop
  | .simSt => SoundTree T t label
  | .bst => SoundTree T t label
  | .st => SoundTree T t label ∧ ProperTree t ∧ ∀ nd ∈ t.nodes, nd.depth < 400

theorem depths_lt {t : Tree} {vs : List Nat} {b : Nat} (hb : 0 < b) (h : ∀ nd ∈ t.nodes, nd.depth < b) : ∀ d ∈ depths t vs, d < b := by
  intro d hd
  obtain ⟨v, -, rfl⟩ := List.mem_map.1 hd
  cases e : t.nodes[v]? with
  | none => exact hb
  | some nd => exact h nd (List.mem_of_getElem? e)

theorem treeRules_ok {S : TreeStrategy} {T : List UInt8} {t : Tree} {label : Nat → List UInt8} (hs : Suits T t label S) {minLrf : Nat} (hm : 0 < minLrf) :
    ∃ s, S.rules minLrf t T.length = .ok (s.dict, s.nts.mergeSort ntLe) ∧ Ok T minLrf s := by
  cases S with
  | simSt => exact simRules_ok hs hm
  | bst => exact bstRules_ok hs hm
  | st =>
    obtain ⟨h1, h2, h3⟩ := hs
    exact stRules_ok h1 h2 (fits_of_lt (s := 200) _ _ (Or.inl rfl) (depths_lt (by omega) h3)) hm

/-- **C52 (bit and ASCII literals).** `lfs` with a suffix tree strategy is lossless for every null-terminated text below 4 GiB, every `min_lrf` but 0,
every length coder and every literal coder without header; with the strategy `st` as long as no inner node is deeper than 399. -/
theorem lfs_tree_lossless_partial (S : TreeStrategy) (minLrf : Nat) (hm : 0 < minLrf) (std : StdLib) (c2 c1 : CoderName) (text : List UInt8) (t : Tree)
    (label : Nat → List UInt8) (hs : Suits text t label S) (hn : text.length < 2 ^ 32) :
    ∃ bytes, compressTree S minLrf std (.plain c2.coder) c1.coder t text = .ok bytes ∧ decompress (.plain c2.coder) c1.coder bytes = .ok text := by
  obtain ⟨s, h3, h4⟩ := treeRules_ok hs hm
  exact compressWith_lossless h3 h4 hn std _ c1.lawful c2.lawful

/-- **C52 (Huffman literals).** The same with the Huffman coder, for texts without the byte 255 (C12). -/
theorem lfs_tree_huffman_lossless_partial (S : TreeStrategy) (minLrf : Nat) (hm : 0 < minLrf) (std : StdLib) (c1 : CoderName) (text : List UInt8) (t : Tree)
    (label : Nat → List UInt8) (hs : Suits text t label S) (hn : text.length < 2 ^ 32) (h255 : (255 : UInt8) ∉ text) :
    ∃ bytes, compressTree S minLrf std .huffman c1.coder t text = .ok bytes ∧ decompress .huffman c1.coder bytes = .ok text := by
  obtain ⟨s, h3, h4⟩ := treeRules_ok hs hm
  exact compressWith_lossless h3 h4 hn std _ c1.lawful ⟨hn, h255⟩

/-- **C52 (the grammar).** The rules are substrings of the text of length at least `min_lrf`, listed by decreasing length; each is used at least
twice; the non-terminals are listed by position, do not overlap and stand for the same characters as their rules. -/
theorem lfs_tree_rules_partial (S : TreeStrategy) (minLrf : Nat) (hm : 0 < minLrf) (text : List UInt8) (t : Tree) (label : Nat → List UInt8)
    (hs : Suits text t label S) :
    ∃ dict nts, S.rules minLrf t text.length = .ok (dict, nts) ∧
      (∀ r ∈ dict, minLrf ≤ r.2 ∧ r.1 + r.2 ≤ text.length) ∧ dict.Pairwise (fun a b => b.2 ≤ a.2) ∧
      (∀ k, k < dict.length → 2 ≤ (nts.filter fun t => t.2.1 = k).length) ∧
      nts.Pairwise (fun a b => a.1 + a.2.2 ≤ b.1) ∧
      ∀ t ∈ nts, t.1 + t.2.2 ≤ text.length ∧ ∃ b, dict[t.2.1]? = some (b, t.2.2) ∧ (text.drop b).take t.2.2 = (text.drop t.1).take t.2.2 := by
  obtain ⟨s, h3, h4⟩ := treeRules_ok hs hm
  have hp := List.mergeSort_perm s.nts ntLe
  refine ⟨s.dict, s.nts.mergeSort ntLe, h3, fun r hr => ?_, h4.desc, fun k hk => ?_, h4.cover.pairwise.2, fun t ht => ?_⟩
  · obtain ⟨a, -, b⟩ := h4.rule r hr
    exact ⟨a, b⟩
  · rw [(hp.filter _).length_eq]
    exact h4.used k hk
  · obtain ⟨-, -, a, b⟩ := h4.nt t (hp.mem_iff.1 ht)
    exact ⟨a, b⟩

/-- **C52 fails for `min_lrf = 0`.** The loop over the bins never ends properly, whatever the text and the tree. -/
theorem lfs_tree_min_lrf_zero_broken (S : TreeStrategy) (std : StdLib) (lc : LitCoder) (c1 : UCoder) (text : List UInt8) (hn : 2 ≤ text.length) (t : Tree) :
    ∃ e, compressTree S 0 std lc c1 t text = .error e := by
  have key : ∃ e, S.rules 0 t text.length = .error e := by
    cases S with
    | simSt =>
      simp only [TreeStrategy.rules, simRules]
      cases fillBins growLoop false t t.order (List.replicate 200 []) with
      | error e => exact ⟨e, rfl⟩
      | ok b =>
        obtain ⟨e, he⟩ := treeBins_zero (simStep 0 t) (b.length - 1) (startW t text.length b)
        exact ⟨e, by rw [bind_ok, he]; rfl⟩
    | bst =>
      simp only [TreeStrategy.rules, bstRules]
      cases fillBins growLoop true t t.order (List.replicate 200 []) with
      | error e => exact ⟨e, rfl⟩
      | ok b =>
        obtain ⟨e, he⟩ := treeBins_zero (bstStep t) (maxDepth t) (startW t text.length (b.take (maxDepth t + 1)))
        exact ⟨e, by rw [bind_ok, he]; rfl⟩
    | st =>
      simp only [TreeStrategy.rules, stRules]
      cases fillBins growOnce true t t.order (List.replicate 200 []) with
      | error e => exact ⟨e, rfl⟩
      | ok b =>
        obtain ⟨e, he⟩ := treeBins_zero (stStep 0 t) (b.length - 1) (startW t text.length b)
        exact ⟨e, by rw [bind_ok, he]; rfl⟩
  obtain ⟨e, he⟩ := key
  exact ⟨e, by rw [compressTree, compressWith, if_pos (by omega), he]; rfl⟩

theorem not_fits {t : Tree} {v : Nat} {post : List Nat} {nd : Inner} (hv : t.nodes[v]? = some nd) (hd : 400 ≤ nd.depth) :
    ∀ pre : List Nat, (∀ u ∈ pre, ∀ nu, t.nodes[u]? = some nu → nu.depth < 200) → ¬ Fits 200 (depths t (pre ++ v :: post))
  | [], _, h => by
    simp only [List.nil_append, depths, List.map_cons, hv, Option.map_some, Option.getD_some] at h
    exact absurd h.1 (by omega)
  | u :: pre, hp, h => by
    simp only [List.cons_append, depths, List.map_cons] at h
    have h2 := h.2
    have hu : growOnce 200 ((t.nodes[u]?.map Inner.depth).getD 0) = 200 := by
      unfold growOnce
      rw [if_neg]
      cases e : t.nodes[u]? with
      | none => simp
      | some nu => have := hp u (List.mem_cons_self ..) nu e; simp only [Option.map_some, Option.getD_some]; omega
    rw [hu] at h2
    exact not_fits hv hd pre (fun w hw => hp w (List.mem_cons_of_mem _ hw)) h2

/-- **C52 fails for `st` on deep trees.** The vector of bins is doubled only once per node: a node of depth 400 or more that is visited before any
node of depth 200 or more is written behind the end of the vector. -/
theorem lfs_st_deep_broken (minLrf : Nat) (std : StdLib) (lc : LitCoder) (c1 : UCoder) (text : List UInt8) (hn : 2 ≤ text.length) (t : Tree)
    (label : Nat → List UInt8) (hs : SoundTree text t label) (pre post : List Nat) (v : Nat) (nd : Inner) (ho : t.order = pre ++ v :: post)
    (hv : t.nodes[v]? = some nd) (hd : 400 ≤ nd.depth) (hp : ∀ u ∈ pre, ∀ nu, t.nodes[u]? = some nu → nu.depth < 200) :
    compressTree .st minLrf std lc c1 t text = .error .ub := by
  have h := fillST_ub (t := t) t.order (List.replicate 200 []) hs.order (by rw [List.length_replicate]; omega)
    (by rw [List.length_replicate, ho]; exact not_fits hv hd pre hp) (BinOk.init 200)
  rw [compressTree, compressWith, if_pos (by omega)]
  simp only [TreeStrategy.rules, stRules, h]
  rfl

/-! ## cases -/

/-- the suffix tree of `abab$` -/
def ababTree : Tree := ⟨[⟨0, 0, [.leaf 4, .node 1, .node 2]⟩, ⟨2, 0, [.leaf 2, .leaf 0]⟩, ⟨1, 0, [.leaf 3, .leaf 1]⟩], [0, 1, 2]⟩

def ababLabel : Nat → List UInt8
  | 1 => [97, 98]
  | 2 => [98]
  | _ => []

theorem abab_nodes {P : Nat → Inner → Prop} (h0 : P 0 ⟨0, 0, [.leaf 4, .node 1, .node 2]⟩) (h1 : P 1 ⟨2, 0, [.leaf 2, .leaf 0]⟩)
    (h2 : P 2 ⟨1, 0, [.leaf 3, .leaf 1]⟩) : ∀ (v : Nat) (nd : Inner), ababTree.nodes[v]? = some nd → P v nd := by
  intro v nd hv
  match v with
  | 0 => cases hv; exact h0
  | 1 => cases hv; exact h1
  | 2 => cases hv; exact h2
  | v + 3 => simp [ababTree] at hv

theorem abab_sound : SoundTree [97, 98, 97, 98, 0] ababTree ababLabel where
  depth := abab_nodes rfl rfl rfl
  leaf v nd p hv := abab_nodes (P := fun v nd => Kid.leaf p ∈ nd.kids → ababLabel v <+: [97, 98, 97, 98, 0].drop p)
    (fun h => by simp at h; subst h; decide) (fun h => by simp at h; rcases h with rfl | rfl <;> decide)
    (fun h => by simp at h; rcases h with rfl | rfl <;> decide) v nd hv
  node v nd c hv := abab_nodes (P := fun v nd => Kid.node c ∈ nd.kids → c < ababTree.nodes.length ∧ ababLabel v <+: ababLabel c)
    (fun h => by simp at h; rcases h with rfl | rfl <;> decide) (fun h => by simp at h) (fun h => by simp at h) v nd hv
  order := by decide

theorem abab_proper : ProperTree ababTree where
  kids := abab_nodes (by simp) (by simp) (by simp)
  deeper v nd c nc hv := abab_nodes (P := fun v nd => Kid.node c ∈ nd.kids → ababTree.nodes[c]? = some nc → nc.up = nd.depth ∧ nd.depth < nc.depth)
    (fun h h' => by simp at h; rcases h with rfl | rfl <;> (cases h'; decide)) (fun h => by simp at h) (fun h => by simp at h) v nd hv
  parent u v nu nv c hu hv h1 h2 := by
    have e1 := abab_nodes (P := fun u nu => Kid.node c ∈ nu.kids → u = 0) (fun _ => rfl) (fun h => by simp at h) (fun h => by simp at h) u nu hu h1
    have e2 := abab_nodes (P := fun u nu => Kid.node c ∈ nu.kids → u = 0) (fun _ => rfl) (fun h => by simp at h) (fun h => by simp at h) v nv hv h2
    omega
  child c nc hc := abab_nodes (P := fun c nc => 0 < nc.depth → ∃ (v : Nat) (nd : Inner), ababTree.nodes[v]? = some nd ∧ Kid.node c ∈ nd.kids)
    (fun h => by simp at h) (fun _ => ⟨0, _, rfl, by simp⟩) (fun _ => ⟨0, _, rfl, by simp⟩) c nc hc
  all v nd hv := abab_nodes (P := fun v nd => 0 < nd.depth → v ∈ ababTree.order) (by decide) (by decide) (by decide) v nd hv

example (S : TreeStrategy) : Suits [97, 98, 97, 98, 0] ababTree ababLabel S := by
  cases S
  · exact abab_sound
  · exact abab_sound
  · exact ⟨abab_sound, abab_proper, by decide⟩

/-- the visit of the node `ab` -/
example : bstStep ababTree 2 1 (startW ababTree 5 []) = .ok
    ⟨[none, some [], none], [], ⟨[(0, 2)], [(0, 0, 2), (2, 0, 2)], [true, true, true, true, false]⟩⟩ := by
  simp [bstStep, startW, ababTree, gather, fromKids, notDead, missing, vget, vset, merge, sortPos, worth, spread, sub32, pick, free, addRule, killAll, kill, bind_ok,
    List.replicate, List.mergeSort, List.MergeSort.Internal.splitInTwo]

/-- a deep node: the hypotheses of `lfs_st_deep_broken` (a tree with a single entry; a real suffix tree meets them for `x1x$` if `x` has 400
characters, no repetition of 200 characters and a smallest first character) -/
example : SoundTree (List.replicate 401 97 ++ [0]) ⟨[⟨400, 0, [.leaf 0, .leaf 1]⟩], [0]⟩ (fun _ => List.replicate 400 97) where
  depth v nd hv := by
    match v with
    | 0 => cases hv; rw [List.length_replicate]
    | v + 1 => simp at hv
  leaf v nd p hv hp := by
    match v with
    | 0 =>
      cases hv
      simp at hp
      rcases hp with rfl | rfl <;> decide +kernel
    | v + 1 => simp at hv
  node v nd c hv hc := by
    match v with
    | 0 => cases hv; simp at hc
    | v + 1 => simp at hv
  order := by simp

end Lfs
end Tdc
