import Verif.Lemmas.LFS2Inv
import Verif.Props.LFSTree

/-!
# Property C53: LFS2Compressor and LFS2BSTCompressor

`t` is the suffix tree the compressor visits (`Spec/SuffixTree.lean`).
-/

namespace Tdc
namespace Lfs2

open Arith (bind_ok)
open Lfs

variable {T : List UInt8} {t : Tree} {label : Nat → List UInt8}

/-- lfs2 cuts off the sentinel and fails if nothing remains (see `lfs2_empty_broken`) -/
def Enough (K : Kind) (minLrf : Nat) (T : List UInt8) : Prop :=
  match K with
  | .lfs2 _ => 2 ≤ T.length ∨ 2 ≤ minLrf
  | .lfs2bst => True

theorem compute_ok (K : Kind) (hs : SoundTree T t label) (hS : Sentinel T) (hn : T.length < 2 ^ 32) {minLrf : Nat} (hm : 0 < minLrf) (he : Enough K minLrf T) :
    ∃ g m, compute K minLrf t T fresh = .ok (g, m) ∧ Inv T minLrf g ∧ m.dict = g.dict := by
  unfold compute
  split
  · next hl =>
    cases K with
    | lfs2 exact =>
      obtain ⟨u, rfl, h0⟩ := hS
      have hu : u ≠ [] := by
        rintro rfl
        simp [Enough] at he hl
        omega
      obtain ⟨b, f1, f2, f3, -⟩ := fillBins_ok (skip0 := false) t.order (List.replicate 200 []) hs.order (by rw [List.length_replicate]; omega) (BinOk.init 200)
      rw [List.length_replicate] at f3
      obtain ⟨w, e1, e2⟩ := popBins_ok (t := t) (T := u ++ [0]) (label := label) hm (fun len v vs w hl h => step_ok hs hn false exact hm hl h) (b.length - 1)
        ⟨List.replicate t.nodes.length none, b, 1, startG [] (u ++ [0]).length⟩ ⟨Inv.init _ _, rfl, BgOk.init _ t label, f2, by show b.length - 1 < b.length; omega, by simp⟩
      simp only [fresh, resize_nil, strip_ok hu h0, f1, bind_ok, e1]
      exact ⟨_, _, rfl, e2, rfl⟩
    | lfs2bst =>
      obtain ⟨b, f1, f2, f3, f4, -⟩ := fillBins_ok (skip0 := true) t.order (List.replicate 200 []) hs.order (by rw [List.length_replicate]; omega) (BinOk.init 200)
      rw [List.length_replicate] at f3
      have hd : maxDepth t < b.length := by
        refine foldl_max_lt _ 0 (by omega) fun d hd => ?_
        obtain ⟨v, hv, e⟩ := List.mem_filterMap.1 hd
        cases hn : t.nodes[v]? with
        | none => rw [hn] at e; cases e
        | some nd =>
          rw [hn] at e
          cases e
          exact (f4 v hv nd hn).1
      obtain ⟨w, e1, e2⟩ := popBins_ok (t := t) (T := T) (label := label) hm (fun len v vs w hl h => step_ok hs hn true false hm hl h) (maxDepth t)
        ⟨List.replicate t.nodes.length none, b.take (maxDepth t + 1), 1, startG [] T.length⟩ ⟨Inv.init _ _, rfl, BgOk.init _ t label, f2.take _, by
          simp only [List.length_take]
          omega, by simp⟩
      simp only [fresh, resize_nil, List.nil_append, List.length_nil, Nat.sub_zero, f1, bind_ok, e1]
      exact ⟨_, _, rfl, e2, rfl⟩
  · exact ⟨_, _, rfl, Inv.init _ _, rfl⟩

theorem compress_ok (K : Kind) (hs : SoundTree T t label) (hS : Sentinel T) (hn : T.length < 2 ^ 32) {minLrf : Nat} (hm : 0 < minLrf) (he : Enough K minLrf T)
    (std : StdLib) (lc : LitCoder) {c1 : UCoder} (hc1 : c1.Lawful) (hlc : LitOk lc T) :
    ∃ bytes m, compress K minLrf std lc c1 t fresh T = .ok (bytes, m) ∧ decompress lc c1 bytes = .ok T := by
  obtain ⟨g, m, h1, h2, -⟩ := compute_ok K hs hS hn hm he
  obtain ⟨ls, ts, bytes, a, b, c, d⟩ := h2.lossless hn std lc hc1 hlc
  exact ⟨bytes, m, by rw [compress, h1, bind_ok, a, bind_ok, b, bind_ok, c, bind_ok], d⟩

/-- **C53 (bit and ASCII literals).** A new object of lfs2 (with and without `exact`) or lfs2bst is lossless for every null-terminated text below 4 GiB,
every `min_lrf` but 0 (lfs2: not 1 for the empty text), every length coder and every literal coder without header. -/
theorem lfs2_lossless_partial (K : Kind) (minLrf : Nat) (hm : 0 < minLrf) (std : StdLib) (c2 c1 : CoderName) (text : List UInt8) (t : Tree)
    (label : Nat → List UInt8) (hs : SoundTree text t label) (hS : Sentinel text) (hn : text.length < 2 ^ 32) (he : Enough K minLrf text) :
    ∃ bytes m, compress K minLrf std (.plain c2.coder) c1.coder t fresh text = .ok (bytes, m) ∧ decompress (.plain c2.coder) c1.coder bytes = .ok text :=
  compress_ok K hs hS hn hm he std _ c1.lawful c2.lawful

/-- **C53 (Huffman literals).** The same with the Huffman coder, for texts without the byte 255 (C12).  The frequencies are those of the characters
that are written, so the proof includes that every character written has been announced. -/
theorem lfs2_huffman_lossless_partial (K : Kind) (minLrf : Nat) (hm : 0 < minLrf) (std : StdLib) (c1 : CoderName) (text : List UInt8) (t : Tree)
    (label : Nat → List UInt8) (hs : SoundTree text t label) (hS : Sentinel text) (hn : text.length < 2 ^ 32) (he : Enough K minLrf text) (h255 : (255 : UInt8) ∉ text) :
    ∃ bytes m, compress K minLrf std .huffman c1.coder t fresh text = .ok (bytes, m) ∧ decompress .huffman c1.coder bytes = .ok text :=
  compress_ok K hs hS hn hm he std _ c1.lawful ⟨hn, h255⟩

/-- **C53 (the grammar).** The rules are substrings of the text of length at least `min_lrf`, listed by decreasing length, with disjoint representatives
in the text.  The symbols of the first layer stand for the same characters as their rules and do not overlap; every rule occurs in the first layer.
A symbol inside a rule has a larger number than the rule (so the grammar has no cycle), lies within it, stands for the same characters as its own rule,
and the symbols inside rules do not overlap. -/
theorem lfs2_grammar_partial (K : Kind) (minLrf : Nat) (hm : 0 < minLrf) (text : List UInt8) (t : Tree) (label : Nat → List UInt8) (hs : SoundTree text t label)
    (hS : Sentinel text) (hn : text.length < 2 ^ 32) (he : Enough K minLrf text) :
    ∃ g m, compute K minLrf t text fresh = .ok (g, m) ∧
      (∀ r ∈ g.dict, minLrf ≤ r.2 ∧ r.1 + r.2 ≤ text.length) ∧ g.dict.Pairwise (fun a b => b.2 ≤ a.2) ∧
      g.dict.Pairwise (fun a b => a.1 + a.2 ≤ b.1 ∨ b.1 + b.2 ≤ a.1) ∧
      (∀ k b l : Nat, g.dict[k]? = some (b, l) → g.first[b]? = some (k + 1)) ∧
      (∀ x k : Nat, g.first[x]? = some (k + 1) → ∃ b l, g.dict[k]? = some (b, l) ∧ x + l ≤ text.length ∧ (text.drop b).take l = (text.drop x).take l ∧
        ∀ y k' : Nat, g.first[y]? = some (k' + 1) → x < y → x + l ≤ y) ∧
      (∀ x k : Nat, g.second[x]? = some (k + 1) → ∃ c l', g.dict[k]? = some (c, l') ∧ (text.drop c).take l' = (text.drop x).take l' ∧
        (∃ k' b l, k' < k ∧ g.dict[k']? = some (b, l) ∧ b ≤ x ∧ x + l' ≤ b + l) ∧
        ∀ y k' : Nat, g.second[y]? = some (k' + 1) → x < y → x + l' ≤ y) := by
  obtain ⟨g, m, h1, h2, -⟩ := compute_ok K hs hS hn hm he
  refine ⟨g, m, h1, fun r hr => ⟨(h2.rule r hr).1, (h2.rule r hr).2.2⟩, h2.desc, ?_, h2.rep, fun x k hx => ?_, fun x k hx => ?_⟩
  · rw [List.pairwise_iff_getElem]
    intro i j hi hj hij
    have hp := h2.disjoint
    rw [List.pairwise_iff_getElem] at hp
    have := hp i j hi hj hij (max g.dict[i].1 g.dict[j].1)
    rw [List.mem_range'_1, List.mem_range'_1] at this
    have a := (h2.rule _ (List.getElem_mem hi)).2.1
    have b := (h2.rule _ (List.getElem_mem hj)).2.1
    omega
  · obtain ⟨b, l, a1, a2, a3, a4, a5⟩ := h2.fst x (k + 1) hx (by omega)
    refine ⟨b, l, a1, a3, a4, fun y k' hy hxy => ?_⟩
    obtain ⟨b', l', b1, b2, b3, b4, b5⟩ := h2.fst y (k' + 1) hy (by omega)
    rcases Nat.lt_or_ge y (x + l) with hlt | hge
    · exfalso
      have e1 := a5 (y - x) (by omega)
      have e2 := b5 0 b2
      rw [show x + (y - x) = y + 0 by omega, e2] at e1
      have := Option.some.inj e1
      omega
    · exact hge
  · obtain ⟨k', b, l, c, l', a1, a2, a3, a4, a5, a6, a7⟩ := h2.snd x (k + 1) hx (by omega)
    exact ⟨c, l', a2, a7, ⟨k', b, l, by omega, a1, a5, a6⟩, fun y q hy hxy => h2.sdisj x (k + 1) c l' y (q + 1) hx (by omega) a2 hy (by omega) hxy⟩

/-- **C53 fails for `min_lrf = 0`**, whatever the text, the tree and the object. -/
theorem lfs2_min_lrf_zero_broken (K : Kind) (std : StdLib) (lc : LitCoder) (c1 : UCoder) (t : Tree) (m : Members) (text : List UInt8) :
    ∃ e, compress K 0 std lc c1 t m text = .error e := by
  have key : ∃ e, compute K 0 t text m = .error e := by
    unfold compute
    rw [if_pos (Nat.zero_le _)]
    cases K with
    | lfs2 exact =>
      simp only
      cases strip text text.length with
      | error e => exact ⟨e, rfl⟩
      | ok n =>
        rw [bind_ok]
        cases fillBins growLoop false t t.order (resize m.bins 200 []) with
        | error e => exact ⟨e, rfl⟩
        | ok b =>
          rw [bind_ok]
          obtain ⟨e, he⟩ := popBins_zero (step false exact t) (b.length - 1) ⟨resize m.begins t.nodes.length none, b, 1, startG m.dict text.length⟩
          exact ⟨e, by rw [he]; rfl⟩
    | lfs2bst =>
      simp only
      cases fillBins growLoop true t t.order (resize m.bins 200 []) with
      | error e => exact ⟨e, rfl⟩
      | ok b =>
        rw [bind_ok]
        obtain ⟨e, he⟩ := popBins_zero (step true false t) (maxDepth t)
          ⟨m.begins ++ List.replicate (t.nodes.length - m.begins.length) none, b.take (maxDepth t + 1), 1, startG m.dict text.length⟩
        exact ⟨e, by rw [he]; rfl⟩
  obtain ⟨e, he⟩ := key
  exact ⟨e, by rw [compress, he]; rfl⟩

/-- **C53 fails for lfs2 with `min_lrf = 1` on the empty text** (with its sentinel): the loop that cuts off the sentinel runs over the start of the text. -/
theorem lfs2_empty_broken (exact : Bool) (std : StdLib) (lc : LitCoder) (c1 : UCoder) (t : Tree) (m : Members) :
    compress (.lfs2 exact) 1 std lc c1 t m [0] = .error .ub := rfl

/-- **C53 fails for an object that is used twice.** The rules are not cleared: if the first text has a rule, compressing the empty text with the same
object reads behind the arrays. -/
theorem lfs2_reuse_broken (K : Kind) (minLrf : Nat) (hm : 2 ≤ minLrf) (std : StdLib) (lc : LitCoder) (c1 : UCoder) (t t' : Tree)
    (label : Nat → List UInt8) (text : List UInt8) (hs : SoundTree text t label) (hS : Sentinel text) (hn : text.length < 2 ^ 32) (bytes : List UInt8) (m : Members)
    (h : compress K minLrf std lc c1 t fresh text = .ok (bytes, m)) (hr : m.dict ≠ []) : compress K minLrf std lc c1 t' m [0] = .error .ub := by
  obtain ⟨g, m', h1, h2, h3⟩ := compute_ok K hs hS hn (show 0 < minLrf by omega) (by cases K <;> simp [Enough]; omega)
  have hm' : m' = m := by
    rw [compress, h1, bind_ok] at h
    cases hl : literals text g with
    | error e => rw [hl] at h; cases h
    | ok ls =>
      rw [hl, bind_ok] at h
      cases ht : encodeToks2 text g with
      | error e => rw [ht] at h; cases h
      | ok ts =>
        rw [ht, bind_ok] at h
        cases hw : write std lc c1 ls ts with
        | error e => rw [hw] at h; cases h
        | ok bs =>
          rw [hw, bind_ok] at h
          cases h
          rfl
  subst hm'
  have hc : compute K minLrf t' [0] m' = .ok (startG m'.dict 1, m') := by
    unfold compute
    rw [if_neg (by simp; omega)]
    rfl
  have hu : literals [0] (startG m'.dict 1) = .error .ub := by
    rw [h3] at hr ⊢
    cases hd : g.dict with
    | nil => exact absurd hd hr
    | cons r rs =>
      have hlen := (h2.rule r (by rw [hd]; exact List.mem_cons_self ..)).1
      have key : ∀ k p : Nat, 2 ≤ p + k → 0 < k → litsAt [0] [0] k p = .error .ub := by
        intro k p hk h0
        match p, k with
        | 0, k + 2 => rfl
        | p + 1, k + 1 => rfl
      have : litsAt [0] [0] r.2 r.1 = .error .ub := key _ _ (by omega) (by omega)
      simp only [literals, startG, List.replicate, List.length_singleton, ruleLits, this]
      rfl
  rw [compress, hc, bind_ok, hu]
  rfl

/-! ## cases -/

theorem abab_fill : (fillBins growLoop true ababTree [0, 1, 2] (List.replicate 200 [])).map (·.take 3) = .ok [[], [2], [1]] := by decide +kernel

/-- lfs2bst with `min_lrf = 2` finds the rule `ab` of `abab$` -/
theorem abab_compute : compute .lfs2bst 2 ababTree [97, 98, 97, 98, 0] fresh = .ok
    (⟨[(0, 2)], [1, 2, 1, 2, 0], [1, 0, 1, 0, 0], [0, 0, 0, 0, 0], [false, false, false, false, false]⟩, ⟨[(0, 2)], [[], [2], []], [none, some [0, 2], none]⟩) := by
  have h := abab_fill
  cases hf : fillBins growLoop true ababTree [0, 1, 2] (List.replicate 200 []) with
  | error e => rw [hf] at h; cases h
  | ok b =>
    rw [hf] at h
    have hb : b.take 3 = [[], [2], [1]] := Except.ok.inj h
    have hm : maxDepth ababTree = 2 := by decide
    have ho : ababTree.order = [0, 1, 2] := rfl
    simp only [compute, fresh, resize_nil, ho, hf, bind_ok, hm, hb]
    simp [popBins, popBin, step, startG, ababTree, gather, fromKids, missing, vget, vset, merge, sortPos, spread, sub32, substitute, viable, mark1, mark2, writeOff, bind_ok,
      List.replicate, List.mergeSort, List.MergeSort.Internal.splitInTwo]

example : Sentinel [97, 98, 97, 98, 0] ∧ SoundTree [97, 98, 97, 98, 0] ababTree ababLabel ∧ ∀ K, Enough K 2 [97, 98, 97, 98, 0] :=
  ⟨sentinel_abab, abab_sound, fun K => by cases K <;> simp [Enough]⟩

/-- the hypotheses of `lfs2_reuse_broken` -/
example (std : StdLib) (c : CoderName) : ∃ bytes m, compress .lfs2bst 2 std (.plain c.coder) c.coder ababTree fresh [97, 98, 97, 98, 0] = .ok (bytes, m) ∧ m.dict ≠ [] := by
  obtain ⟨bytes, m, h, -⟩ := lfs2_lossless_partial .lfs2bst 2 (by decide) std c c [97, 98, 97, 98, 0] ababTree ababLabel abab_sound sentinel_abab (by decide) trivial
  refine ⟨bytes, m, h, ?_⟩
  rw [compress, abab_compute, bind_ok] at h
  cases hl : literals [97, 98, 97, 98, 0] ⟨[(0, 2)], [1, 2, 1, 2, 0], [1, 0, 1, 0, 0], [0, 0, 0, 0, 0], [false, false, false, false, false]⟩ with
  | error e => rw [hl] at h; cases h
  | ok ls =>
    rw [hl, bind_ok] at h
    cases ht : encodeToks2 [97, 98, 97, 98, 0] ⟨[(0, 2)], [1, 2, 1, 2, 0], [1, 0, 1, 0, 0], [0, 0, 0, 0, 0], [false, false, false, false, false]⟩ with
    | error e => rw [ht] at h; cases h
    | ok ts =>
      rw [ht, bind_ok] at h
      cases hw : write std (.plain c.coder) c.coder ls ts with
      | error e => rw [hw] at h; cases h
      | ok bs =>
        rw [hw, bind_ok] at h
        cases h
        simp

/-- a second layer: `abcab1abcab2ab$` with the rule `abcab`, whose representative contains the rule `ab` -/
example : substitute 2 2 [0, 3, 6, 9, 12] ⟨[(0, 5)], [1, 2, 3, 4, 5, 0, 1, 2, 3, 4, 5, 0, 0, 0, 0], [1, 0, 0, 0, 0, 0, 1, 0, 0, 0, 0, 0, 0, 0, 0], List.replicate 15 0,
    List.replicate 15 false⟩ = .ok (3, ⟨[(0, 5), (12, 2)], [1, 2, 3, 4, 5, 0, 1, 2, 3, 4, 5, 0, 1, 2, 0], [1, 0, 0, 0, 0, 0, 1, 0, 0, 0, 0, 0, 2, 0, 0],
      [2, 0, 0, 2, 0, 0, 0, 0, 0, 0, 0, 0, 0, 0, 0], [true, true, false, true, true, false, false, false, false, false, false, false, false, false, false]⟩) := by
  decide +kernel

end Lfs2
end Tdc
