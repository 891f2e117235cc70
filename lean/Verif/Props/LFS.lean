import Verif.Lemmas.LFSEsa
import Verif.Props.TextDS
import Verif.Props.Coders

/-!
# Property C51: LFSCompressor with EncodeStrategy and ESAStrategy

`diff` is the value of `std::abs((long)(a - b))` stored in a `uint`; for `a < b` it depends on the integer type of the suffix array, and no claim
depends on it.  The length coders of the registry are the universal coders, the literal coders are bit, ASCII and Huffman.
-/

namespace Tdc
namespace Lfs

open Arith (bind_ok)

/-- the arrays the strategy works on -/
theorem arrays (pk : Packs) {T : List UInt8} {sa : List Nat} (hsa : IsSA T sa) (hs : Sentinel T) (hn : T.length < 2 ^ 32) :
    ∃ A, textDS pk T sa = .ok A ∧ ArraysOk T A := by
  obtain ⟨A, h1, h2, -, h4, h5, h6, h7⟩ := textds_exact pk T sa hsa hs (by omega)
  exact ⟨A, h1, h2 ▸ hsa, h2 ▸ h4, h5, h6, h2 ▸ h7⟩

theorem Sentinel.pos {T : List UInt8} (hs : Sentinel T) : 0 < T.length := by
  obtain ⟨u, rfl, -⟩ := hs
  simp

/-- `compress` is lossless whatever rules a strategy finds, as long as they satisfy the invariant -/
theorem compressWith_lossless {T : List UInt8} {len : Nat} {s : St} {rules : Res (List (Nat × Nat) × List (Nat × Nat × Nat))}
    (hr : rules = .ok (s.dict, s.nts.mergeSort ntLe)) (h : Ok T len s) (hn : T.length < 2 ^ 32) (std : StdLib) (lc : LitCoder) {c1 : UCoder} (hc1 : c1.Lawful)
    (hlc : LitOk lc T) : ∃ bytes, compressWith std lc c1 T rules = .ok bytes ∧ decompress lc c1 bytes = .ok T := by
  unfold compressWith
  split
  · obtain ⟨ts, bytes, h1, h2, h3⟩ := h.lossless hn std lc hc1 hlc
    exact ⟨bytes, by rw [hr, bind_ok, h1, bind_ok, h2], h3⟩
  · obtain ⟨ts, bytes, h1, h2, h3⟩ := (Ok.init T 0).lossless hn std lc hc1 hlc
    rw [List.mergeSort_nil] at h1
    exact ⟨bytes, by rw [bind_ok, h1, bind_ok, h2], h3⟩

/-- **C51 (bit and ASCII literals).** `lfs` with the strategy `esa` is lossless for every null-terminated text below 4 GiB, every packing of the
arrays, every length coder and every literal coder without header. -/
theorem lfs_esa_lossless (std : StdLib) (c2 c1 : CoderName) (diff : Nat → Nat → Nat) (pk : Packs) (text : List UInt8) (sa : List Nat)
    (hsa : IsSA text sa) (hs : Sentinel text) (hn : text.length < 2 ^ 32) :
    ∃ bytes, compressESA std (.plain c2.coder) c1.coder diff pk text sa = .ok bytes ∧ decompress (.plain c2.coder) c1.coder bytes = .ok text := by
  obtain ⟨A, h1, h2⟩ := arrays pk hsa hs hn
  obtain ⟨s, h3, h4⟩ := esaRules_ok h2 (Sentinel.pos hs) diff
  exact compressWith_lossless (by rw [h1, bind_ok, h3]) h4 hn std _ c1.lawful c2.lawful

/-- **C51 (Huffman literals).** The same with the Huffman coder, for texts without the byte 255 (which the Huffman coder cannot handle, C12). -/
theorem lfs_esa_huffman_lossless_partial (std : StdLib) (c1 : CoderName) (diff : Nat → Nat → Nat) (pk : Packs) (text : List UInt8) (sa : List Nat)
    (hsa : IsSA text sa) (hs : Sentinel text) (hn : text.length < 2 ^ 32) (h255 : (255 : UInt8) ∉ text) :
    ∃ bytes, compressESA std .huffman c1.coder diff pk text sa = .ok bytes ∧ decompress .huffman c1.coder bytes = .ok text := by
  obtain ⟨A, h1, h2⟩ := arrays pk hsa hs hn
  obtain ⟨s, h3, h4⟩ := esaRules_ok h2 (Sentinel.pos hs) diff
  exact compressWith_lossless (by rw [h1, bind_ok, h3]) h4 hn std _ c1.lawful ⟨hn, h255⟩

theorem Cover.pairwise {T : List UInt8} {dict : List (Nat × Nat)} : ∀ {nts : List (Nat × Nat × Nat)} {pos : Nat}, Cover T dict pos nts →
    (∀ t ∈ nts, pos ≤ t.1) ∧ nts.Pairwise fun a b => a.1 + a.2.2 ≤ b.1
  | [], _, _ => ⟨by simp, .nil⟩
  | (s, k, l) :: rest, pos, h => by
    obtain ⟨h1, h2, h3, h4⟩ := h
    obtain ⟨a, b⟩ := Cover.pairwise h4
    refine ⟨fun t ht => ?_, .cons a b⟩
    rcases List.mem_cons.1 ht with rfl | ht
    · exact h1
    · have := a t ht
      omega

/-- **C51 (the grammar).** The strategy `esa` returns a factorisation of the text: the rules are substrings of the text of length at least 2, listed
by decreasing length; each is used at least twice; the non-terminals are listed by position, do not overlap and stand for the same characters as
their rules. -/
theorem lfs_esa_rules (diff : Nat → Nat → Nat) (pk : Packs) (text : List UInt8) (sa : List Nat) (hsa : IsSA text sa) (hs : Sentinel text)
    (hn : text.length < 2 ^ 32) :
    ∃ dict nts, ((textDS pk text sa).bind fun A => esaRules diff A text.length) = .ok (dict, nts) ∧
      (∀ r ∈ dict, 2 ≤ r.2 ∧ r.1 + r.2 ≤ text.length) ∧ dict.Pairwise (fun a b => b.2 ≤ a.2) ∧
      (∀ k, k < dict.length → 2 ≤ (nts.filter fun t => t.2.1 = k).length) ∧
      nts.Pairwise (fun a b => a.1 + a.2.2 ≤ b.1) ∧
      ∀ t ∈ nts, t.1 + t.2.2 ≤ text.length ∧ ∃ b, dict[t.2.1]? = some (b, t.2.2) ∧ (text.drop b).take t.2.2 = (text.drop t.1).take t.2.2 := by
  obtain ⟨A, h1, h2⟩ := arrays pk hsa hs hn
  obtain ⟨s, h3, h4⟩ := esaRules_ok h2 (Sentinel.pos hs) diff
  have hp := List.mergeSort_perm s.nts ntLe
  refine ⟨s.dict, s.nts.mergeSort ntLe, by rw [h1, bind_ok, h3], fun r hr => ?_, h4.desc, fun k hk => ?_, h4.cover.pairwise.2, fun t ht => ?_⟩
  · obtain ⟨a, -, b⟩ := h4.rule r hr
    exact ⟨a, b⟩
  · rw [(hp.filter _).length_eq]
    exact h4.used k hk
  · obtain ⟨-, -, a, b⟩ := h4.nt t (hp.mem_iff.1 ht)
    exact ⟨a, b⟩

/-- a case: one rule, used twice -/
example : esaRules (fun a b => a - b + (b - a)) ⟨[4, 2, 0, 3, 1], [2, 4, 1, 3, 0], [0, 0, 2, 0, 1]⟩ 5 = .ok ([(0, 2)], [(0, 0, 2), (2, 0, 2)]) := by
  have h : bins (fun a b => a - b + (b - a)) ⟨[4, 2, 0, 3, 1], [2, 4, 1, 3, 0], [0, 0, 2, 0, 1]⟩ 4 1 [] = .ok [[], [], [2]] := by decide +kernel
  simp [esaRules, h, bind_ok, minLrf, allBins, bin, entry, upLoop, downLoop, visit, shorter, vget, vset, select, sortPos, greedy, addRule, killAll, kill, ntLe,
    List.mergeSort, List.MergeSort.Internal.splitInTwo]

/-- and what is written for it: the list of lengths, the rule, the start symbol -/
example : encodeToks [97, 98, 97, 98, 0] [(0, 2)] [(0, 0, 2), (2, 0, 2)] = .ok
    [.len intR 2, .len (.range 0 2) 2, .lit .literal 97, .lit .literal 98, .lit .bit 1, .lit (.range 0 1) 0, .lit .bit 1, .lit (.range 0 1) 0,
      .lit .bit 0, .lit .literal 0] := by
  decide +kernel

example : Sentinel [97, 98, 97, 98, 0] ∧ IsSA [97, 98, 97, 98, 0] [4, 2, 0, 3, 1] := ⟨sentinel_abab, isSA_abab⟩

end Lfs
end Tdc
