import Verif.Lemmas.BWT
import Verif.Props.TextDS

/-!
# Property C17: the Burrows-Wheeler transform is invertible

`bwtCompress text sa` is the output of the `bwt` compressor for the (restricted) text with suffix array `sa`.
-/

namespace Tdc

/-- **C17 (partial).** For every text without byte 255, decoding the transform gives the text without its terminator.
Missing: texts with byte 255, for which the claim is false (`bwt_255_broken`). -/
theorem bwt_invertible_partial (text : List UInt8) (sa : List Nat) (hsa : IsSA text sa) (hs : Sentinel text) (h255 : (255 : UInt8) ∉ text) :
    ∃ b, bwtCompress text sa = .ok b ∧ decodeBwt b = .ok (text.take (text.length - 1)) := by
  have hn := hs.len_pos
  refine ⟨_, bwtCompress_spec hsa hn, ?_⟩
  unfold decodeBwt
  rw [List.length_map, hsa.length]
  split
  · have : text.length - 1 = 0 := by omega
    rw [this]; rfl
  · have := bwtDecLoop_spec hsa hs h255 (text.length - 1) 0 (hsa.zero hs)
    rw [List.drop_eq_nil_of_le (by simp)] at this
    exact this

/-- **C17 (partial), the compressor.** The `bwt` compressor restores every such text; the text consisting of the terminator only
becomes empty (which is the same thing once the terminator is stripped). -/
theorem bwt_compressor_lossless_partial (text : List UInt8) (sa : List Nat) (hsa : IsSA text sa) (hs : Sentinel text) (h255 : (255 : UInt8) ∉ text) :
    ∃ b, bwtCompress text sa = .ok b ∧ bwtDecompress b = .ok (if text.length = 1 then [] else text) := by
  obtain ⟨b, h1, h2⟩ := bwt_invertible_partial text sa hsa hs h255
  refine ⟨b, h1, ?_⟩
  rw [bwtDecompress, h2]
  have hn := hs.len_pos
  simp only
  congr 1
  by_cases h : text.length = 1
  · rw [if_pos h, h]; rfl
  · rw [if_neg h]
    have hne : (text.take (text.length - 1)).isEmpty = false := by
      rw [List.isEmpty_eq_false_iff]
      intro he
      have := congrArg List.length he
      simp only [List.length_take, List.length_nil] at this
      omega
    rw [hne]
    simp only [Bool.false_eq_true, if_false]
    have hl := hs.last
    rw [List.getElem?_eq_getElem (by omega)] at hl
    have : text[text.length - 1]'(by omega) = 0 := by simpa using hl
    conv => rhs; rw [← List.take_append_drop (text.length - 1) text, List.drop_eq_getElem_cons (by omega : text.length - 1 < text.length), this,
      List.drop_eq_nil_of_le (by omega)]

/-- the hypotheses on "abab\0" -/
example : IsSA [97, 98, 97, 98, 0] [4, 2, 0, 3, 1] ∧ Sentinel [97, 98, 97, 98, 0] ∧ (255 : UInt8) ∉ ([97, 98, 97, 98, 0] : List UInt8) :=
  ⟨isSA_abab, sentinel_abab, by decide⟩

theorem bwtDecLoop_stuck (bwt : List UInt8) (LF : List Nat) (c : UInt8) (h1 : bwt[0]? = some c) (h2 : LF[0]? = some 0) (k : Nat) :
    ∀ m, bwtDecLoop bwt LF k 0 (List.replicate m c) = .ok (List.replicate (k + m) c) := by
  induction k with
  | zero => intro m; rw [Nat.zero_add]; rfl
  | succ k ih =>
    intro m
    rw [bwtDecLoop, vget_ok h1, vget_ok h2]
    simp only
    rw [← List.replicate_succ, ih (m + 1)]
    congr 2
    omega

/-- **C17 (negation).** Every text that ends in byte 255 (before the terminator) and has no byte 254 decodes to a string of 255s only.
(The character table is not accumulated for 255: ds/bwt.hpp:40.) -/
theorem bwt_255_broken (u : List UInt8) (sa : List Nat) (hsa : IsSA (u ++ [255, 0]) sa) (h0 : (0 : UInt8) ∉ u) (h254 : (254 : UInt8) ∉ u) :
    ∃ b, bwtCompress (u ++ [255, 0]) sa = .ok b ∧ decodeBwt b = .ok (List.replicate (u.length + 1) 255) := by
  have hs : Sentinel (u ++ [255, 0]) := ⟨u ++ [255], by simp, by simp [h0]⟩
  have hz := hsa.zero hs
  have hlen : (u ++ [255, 0]).length = u.length + 2 := by simp
  refine ⟨_, bwtCompress_spec hsa (by omega), ?_⟩
  have hb : (sa.map (prevChar (u ++ [255, 0])))[0]? = some 255 := by
    rw [List.getElem?_map, hz, hlen]
    simp [prevChar]
  have hLF : (bwtLF (sa.map (prevChar (u ++ [255, 0]))))[0]? = some 0 := by
    rw [bwtLF, bwtLFLoop_spec _ _ 0 255 hb]
    refine congrArg some ?_
    rw [show (255 : UInt8).toNat = 255 from rfl, (bwtC_spec _).2, List.take_zero, List.count_nil, Nat.add_zero, List.countP_map, hsa.perm.countP_eq]
    have := countP_prevChar (u ++ [255, 0]) (fun x => decide (x.toNat = 254))
    rw [show ((fun x : UInt8 => decide (x.toNat = 254)) ∘ prevChar (u ++ [255, 0])) = fun p => decide ((prevChar (u ++ [255, 0]) p).toNat = 254) from rfl, this,
      List.countP_eq_zero]
    intro x hx
    simp only [List.mem_append, List.mem_cons, List.not_mem_nil, or_false] at hx
    simp only [decide_eq_true_eq]
    intro he
    have he : x = 254 := UInt8.toNat_inj.mp he
    subst he
    rcases hx with hx | hx | hx
    · exact h254 hx
    · exact absurd hx (by decide)
    · exact absurd hx (by decide)
  unfold decodeBwt
  rw [List.length_map, hsa.length, hlen, if_neg (by omega)]
  exact bwtDecLoop_stuck _ _ 255 hb hLF (u.length + 1) 0

/-- so "a\xFF\0" becomes "\xFF\xFF" -/
theorem bwt_lossy : ∃ text sa b s, IsSA text sa ∧ Sentinel text ∧ bwtCompress text sa = .ok b ∧ decodeBwt b = .ok s ∧ s ≠ text.take (text.length - 1) := by
  obtain ⟨sa, hsa⟩ := exists_isSA [97, 255, 0]
  obtain ⟨b, h1, h2⟩ := bwt_255_broken [97] sa hsa (by decide) (by decide)
  exact ⟨_, sa, b, _, hsa, ⟨[97, 255], rfl, by decide⟩, h1, h2, by decide⟩

/-- the LF property itself also holds for rows whose character is not 255, whatever else the text contains -/
theorem bwt_lf_partial (text : List UInt8) (sa : List Nat) (hsa : IsSA text sa) (hs : Sentinel text) (i s : Nat) (hi : sa[i]? = some (s + 1))
    (h255 : text.getD s 0 ≠ 255) : ∃ b k, bwtCompress text sa = .ok b ∧ (bwtLF b)[i]? = some k ∧ sa[k]? = some s := by
  obtain ⟨k, h1, h2⟩ := lf_step hsa hs hi h255
  exact ⟨_, k, bwtCompress_spec hsa hs.len_pos, h1, h2⟩

end Tdc
