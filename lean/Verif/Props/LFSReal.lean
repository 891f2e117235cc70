import Verif.Props.SuffixTree

/-!
# Properties C52 and C53 for the suffix trees that are built

The strategies `bst` and `st` and the compressor `lfs2bst` with the trees of C54: nothing is assumed of a tree.
-/

namespace Tdc
namespace Lfs

open Arith (bind_ok)

/-- the tree of the strategy `bst` -/
theorem bstTree_ok {T : List UInt8} (hT : 2 ≤ T.length) : ∃ t label, bstTree T = .ok t ∧ SoundTree T t label ∧ ProperTree t := by
  obtain ⟨b, h1, h2, h3, -⟩ := binarySuffixTree_correct_partial T hT
  obtain ⟨t, label, h4, h5, h6, -⟩ := treeOf_ok h3 h2
  exact ⟨t, label, by rw [bstTree, h1, bind_ok, h4], h5, h6⟩

/-- an iteration order of the maps of the tree of `T` -/
def Orders (ks : Nat → List UInt8) (T : List UInt8) : Prop := ∀ o, Ukk.append T Ukk.empty = .ok o → Ukk.Iterates ks o.s

/-- the tree of the strategy `st` -/
theorem stTree_ok {ks : Nat → List UInt8} {T : List UInt8} (hk : Orders ks T) : ∃ t label, stTree ks T = .ok t ∧ SoundTree T t label ∧ ProperTree t ∧
    ∀ nd ∈ t.nodes, nd.depth = 0 ∨ ∃ i j w, i ≠ j ∧ w <+: T.drop i ∧ w <+: T.drop j ∧ w.length = nd.depth := by
  obtain ⟨o, h1, h2, h3⟩ := suffixTree_correct [T]
  have ha : Ukk.append T Ukk.empty = .ok o := by
    rw [Ukk.appends] at h1
    cases e : Ukk.append T Ukk.empty with
    | error x => rw [e] at h1; cases h1
    | ok o' => rw [e, bind_ok, Ukk.appends] at h1; exact h1
  have hT : o.text = T := by rw [h2]; simp
  obtain ⟨h4, h5, -⟩ := h3 ks (hk o ha)
  rw [hT] at h4 h5
  obtain ⟨t, label, h6, h7, h8, h9⟩ := treeOf_ok h5 h4
  refine ⟨t, label, by rw [stTree, ha, bind_ok, h6], h7, h8, fun nd hnd => ?_⟩
  obtain ⟨v, hv⟩ := List.getElem?_of_mem hnd
  by_cases h0 : nd.depth = 0
  · exact Or.inl h0
  · obtain ⟨w, k1, k2, k3⟩ := h9 v nd hv (by omega)
    obtain ⟨i, j, k4, k5, k6⟩ := inner_twice h5 k1 (by rintro rfl; exact h0 k2) k3
    exact Or.inr ⟨i, j, w, k4, k5, k6, k2.symm⟩

/-- lfs/LFSCompressor.hpp:55-94 with the strategy `bst`: the tree is built from the text -/
def compressBst (minLrf : Nat) (std : StdLib) (lc : LitCoder) (c1 : UCoder) (T : List UInt8) : Res (List UInt8) :=
  compressWith std lc c1 T ((bstTree T).bind fun t => bstRules minLrf t T.length)

/-- lfs/LFSCompressor.hpp:55-94 with the strategy `st` -/
def compressSt (ks : Nat → List UInt8) (minLrf : Nat) (std : StdLib) (lc : LitCoder) (c1 : UCoder) (T : List UInt8) : Res (List UInt8) :=
  compressWith std lc c1 T ((stTree ks T).bind fun t => stRules minLrf t T.length)

theorem compressWith_congr {std : StdLib} {lc : LitCoder} {c1 : UCoder} {T : List UInt8} {r r' : Res (List (Nat × Nat) × List (Nat × Nat × Nat))}
    (h : 1 < T.length → r = r') : compressWith std lc c1 T r = compressWith std lc c1 T r' := by
  unfold compressWith
  split
  · next h1 => rw [h h1]
  · rfl

theorem compressBst_ok {minLrf : Nat} (hm : 0 < minLrf) (std : StdLib) (lc : LitCoder) {c1 : UCoder} (hc : c1.Lawful) (T : List UInt8) (hn : T.length < 2 ^ 32)
    (hl : LitOk lc T) : ∃ bytes, compressBst minLrf std lc c1 T = .ok bytes ∧ decompress lc c1 bytes = .ok T := by
  unfold compressBst
  by_cases h : 1 < T.length
  · obtain ⟨t, label, h1, h2, -⟩ := bstTree_ok (T := T) (by omega)
    obtain ⟨s, h3, h4⟩ := bstRules_ok h2 hm
    exact compressWith_lossless (by rw [h1, bind_ok, h3]) h4 hn std lc hc hl
  · rw [compressWith_congr (r' := .ok (([] : List (Nat × Nat)), ([] : List (Nat × Nat × Nat)).mergeSort ntLe)) (fun h' => absurd h' h)]
    exact compressWith_lossless rfl (Ok.init T 0) hn std lc hc hl

/-- **C52 (`bst`, bit and ASCII literals).** `lfs` with the strategy `bst` and the tree it builds is lossless for every text below 4 GiB, every `min_lrf`
but 0, every length coder and every literal coder without header. -/
theorem lfs_bst_lossless_partial (minLrf : Nat) (hm : 0 < minLrf) (std : StdLib) (c2 c1 : CoderName) (text : List UInt8) (hn : text.length < 2 ^ 32) :
    ∃ bytes, compressBst minLrf std (.plain c2.coder) c1.coder text = .ok bytes ∧ decompress (.plain c2.coder) c1.coder bytes = .ok text :=
  compressBst_ok hm std _ c1.lawful text hn c2.lawful

/-- **C52 (`bst`, Huffman literals).** The same with the Huffman coder, for texts without the byte 255 (C12). -/
theorem lfs_bst_huffman_lossless_partial (minLrf : Nat) (hm : 0 < minLrf) (std : StdLib) (c1 : CoderName) (text : List UInt8) (hn : text.length < 2 ^ 32)
    (h255 : (255 : UInt8) ∉ text) : ∃ bytes, compressBst minLrf std .huffman c1.coder text = .ok bytes ∧ decompress .huffman c1.coder bytes = .ok text :=
  compressBst_ok hm std _ c1.lawful text hn ⟨hn, h255⟩

/-- no string of `k` characters occurs twice -/
def NoRepeat (k : Nat) (T : List UInt8) : Prop := ∀ i j w, i ≠ j → w <+: T.drop i → w <+: T.drop j → w.length < k

theorem compressSt_ok {ks : Nat → List UInt8} {minLrf : Nat} (hm : 0 < minLrf) (std : StdLib) (lc : LitCoder) {c1 : UCoder} (hc : c1.Lawful) (T : List UInt8)
    (hk : Orders ks T) (hr : NoRepeat 400 T) (hn : T.length < 2 ^ 32) (hl : LitOk lc T) :
    ∃ bytes, compressSt ks minLrf std lc c1 T = .ok bytes ∧ decompress lc c1 bytes = .ok T := by
  unfold compressSt
  obtain ⟨t, label, h1, h2, h3, h4⟩ := stTree_ok hk
  obtain ⟨s, h5, h6⟩ := treeRules_ok (S := .st) (t := t) (label := label) ⟨h2, h3, fun nd hnd => by
    rcases h4 nd hnd with h0 | ⟨i, j, w, k1, k2, k3, k4⟩
    · omega
    · have := hr i j w k1 k2 k3
      omega⟩ hm
  exact compressWith_lossless (by rw [h1, bind_ok]; exact h5) h6 hn std lc hc hl

/-- **C52 (`st`, bit and ASCII literals).** `lfs` with the strategy `st` and the tree it builds is lossless for every text below 4 GiB in which no string
of 400 characters occurs twice, every iteration order of the maps, every `min_lrf` but 0, every length coder and every literal coder without header. -/
theorem lfs_st_lossless_partial (ks : Nat → List UInt8) (minLrf : Nat) (hm : 0 < minLrf) (std : StdLib) (c2 c1 : CoderName) (text : List UInt8) (hk : Orders ks text)
    (hr : NoRepeat 400 text) (hn : text.length < 2 ^ 32) :
    ∃ bytes, compressSt ks minLrf std (.plain c2.coder) c1.coder text = .ok bytes ∧ decompress (.plain c2.coder) c1.coder bytes = .ok text :=
  compressSt_ok hm std _ c1.lawful text hk hr hn c2.lawful

/-- **C52 (`st`, Huffman literals).** The same with the Huffman coder, for texts without the byte 255 (C12). -/
theorem lfs_st_huffman_lossless_partial (ks : Nat → List UInt8) (minLrf : Nat) (hm : 0 < minLrf) (std : StdLib) (c1 : CoderName) (text : List UInt8)
    (hk : Orders ks text) (hr : NoRepeat 400 text) (hn : text.length < 2 ^ 32) (h255 : (255 : UInt8) ∉ text) :
    ∃ bytes, compressSt ks minLrf std .huffman c1.coder text = .ok bytes ∧ decompress .huffman c1.coder bytes = .ok text :=
  compressSt_ok hm std _ c1.lawful text hk hr hn ⟨hn, h255⟩

/-- orders exist -/
theorem orders_exist (T : List UInt8) : ∃ ks, Orders ks T := by
  cases h : Ukk.append T Ukk.empty with
  | error e => exact ⟨fun _ => [], fun o ho => by rw [h] at ho; cases ho⟩
  | ok o =>
    obtain ⟨ks, hk⟩ := iterates_exist o.s
    exact ⟨ks, fun o' ho => by rw [h] at ho; cases ho; exact hk⟩

/-- a short text has no long repetition -/
example : ∃ ks, Orders ks [97, 98, 97, 98, 0] ∧ NoRepeat 400 [97, 98, 97, 98, 0] := by
  obtain ⟨ks, hk⟩ := orders_exist [97, 98, 97, 98, 0]
  refine ⟨ks, hk, fun i j w _ h1 _ => ?_⟩
  have := h1.length_le
  simp at this
  omega

end Lfs

namespace Lfs2

open Arith (bind_ok)
open Lfs

/-- lfs/LFS2BSTCompressor.hpp:97-317: the tree is built if the text has `min_lrf` characters -/
def compressBst (minLrf : Nat) (std : StdLib) (lc : LitCoder) (c1 : UCoder) (m : Members) (T : List UInt8) : Res (List UInt8 × Members) :=
  (if T.length ≥ minLrf then bstTree T else .ok ⟨[], []⟩).bind fun t => compress .lfs2bst minLrf std lc c1 t m T

/-- the tree can be built -/
def Builds (minLrf : Nat) (T : List UInt8) : Prop := 2 ≤ T.length ∨ T.length < minLrf

theorem compressBst_ok {minLrf : Nat} (hm : 0 < minLrf) (std : StdLib) (lc : LitCoder) {c1 : UCoder} (hc : c1.Lawful) (T : List UInt8) (hS : Sentinel T)
    (hb : Builds minLrf T) (hn : T.length < 2 ^ 32) (hl : LitOk lc T) :
    ∃ bytes m, compressBst minLrf std lc c1 fresh T = .ok (bytes, m) ∧ decompress lc c1 bytes = .ok T := by
  unfold compressBst
  split
  · next h =>
    obtain ⟨t, label, h1, h2, -⟩ := bstTree_ok (T := T) (by rcases hb with h' | h' <;> omega)
    rw [h1, bind_ok]
    exact compress_ok .lfs2bst h2 hS hn hm trivial std lc hc hl
  · rw [bind_ok]
    exact compress_ok (label := fun _ => []) .lfs2bst ⟨by simp, by simp, by simp, by simp⟩ hS hn hm trivial std lc hc hl

/-- **C53 (`lfs2bst`, bit and ASCII literals).** A new object of `lfs2bst` with the tree it builds is lossless for every null-terminated text below 4 GiB,
every `min_lrf` but 0 (and 1 for the empty text), every length coder and every literal coder without header. -/
theorem lfs2bst_lossless_partial (minLrf : Nat) (hm : 0 < minLrf) (std : StdLib) (c2 c1 : CoderName) (text : List UInt8) (hS : Sentinel text)
    (hb : Builds minLrf text) (hn : text.length < 2 ^ 32) :
    ∃ bytes m, compressBst minLrf std (.plain c2.coder) c1.coder fresh text = .ok (bytes, m) ∧ decompress (.plain c2.coder) c1.coder bytes = .ok text :=
  compressBst_ok hm std _ c1.lawful text hS hb hn c2.lawful

/-- **C53 (`lfs2bst`, Huffman literals).** The same with the Huffman coder, for texts without the byte 255 (C12). -/
theorem lfs2bst_huffman_lossless_partial (minLrf : Nat) (hm : 0 < minLrf) (std : StdLib) (c1 : CoderName) (text : List UInt8) (hS : Sentinel text)
    (hb : Builds minLrf text) (hn : text.length < 2 ^ 32) (h255 : (255 : UInt8) ∉ text) :
    ∃ bytes m, compressBst minLrf std .huffman c1.coder fresh text = .ok (bytes, m) ∧ decompress .huffman c1.coder bytes = .ok text :=
  compressBst_ok hm std _ c1.lawful text hS hb hn ⟨hn, h255⟩

/-- **C53 fails for `lfs2bst` with `min_lrf = 1` and the empty text**: the tree of the sentinel alone is written out of bounds. -/
theorem lfs2bst_empty_broken (std : StdLib) (lc : LitCoder) (c1 : UCoder) (m : Members) : compressBst 1 std lc c1 m [0] = .error .ub := by
  rw [compressBst, if_pos (by simp), bstTree, (binarySuffixTree_short_broken 0).1]
  rfl

example : Sentinel [97, 98, 97, 98, 0] ∧ Builds 2 [97, 98, 97, 98, 0] := ⟨⟨[97, 98, 97, 98], rfl, by decide⟩, Or.inl (by decide)⟩

end Lfs2
end Tdc
