import Verif.Lemmas.LZSSLCP
import Verif.Props.BitIO
import Verif.Props.TextDS

/-!
# Property C16: lzss_lcp

`lzssLcpCompress c pk threshold text sa`: the compressor with suffix array `sa` (from divsufsort), array packing `pk`, coder `c`.
The text is the restricted input: it ends with its only null byte.
-/

namespace Tdc

/-- **C16.** The factors are the greedy longest-previous-factor parsing: sorted, non-overlapping, at least `threshold` long,
pointing strictly backwards to equal characters, each as long as any earlier occurrence allows, and no position left
uncovered before them has an earlier occurrence of length `threshold`. -/
theorem lzss_lcp_factors (pk : Packs) (threshold : Nat) (text : List UInt8) (sa : List Nat) (hth : 1 ≤ threshold) (hsa : IsSA text sa)
    (hs : Sentinel text) (hlen : text.length < 2 ^ 32) :
    ∃ A fs, textDS pk text sa = .ok A ∧ lcpFactors A text.length threshold = .ok fs ∧ GreedyLPF text threshold 0 fs ∧
      FactorsOrdered text.length 0 fs ∧ FactorsMatch text fs := by
  obtain ⟨A, e1, hA⟩ := ArraysOk.of_textDS pk hsa hs (by omega)
  obtain ⟨fs, e2, hg⟩ := lcpFactorLoop_spec hA hs hlen hth (text.length + 1) 0 (Nat.zero_le _) (by omega)
  exact ⟨A, fs, e1, e2, hg, hg.ordered hs fs 0 (Nat.zero_le _), hg.matches fs 0⟩

/-- **C16.** `lzss_lcp` is lossless for every text, every threshold ≥ 1, every universal coder and every packing mode. -/
theorem lzss_lcp_lossless (n : CoderName) (pk : Packs) (threshold : Nat) (text : List UInt8) (sa : List Nat) (hth : 1 ≤ threshold)
    (hsa : IsSA text sa) (hs : Sentinel text) (hlen : text.length < 2 ^ 32) :
    ∃ bytes, lzssLcpCompress n.coder pk threshold text sa = .ok bytes ∧ lzssLcpDecompress n.coder bytes = .ok text := by
  obtain ⟨A, fs, e1, e2, -, ho, hm⟩ := lzss_lcp_factors pk threshold text sa hth hsa hs hlen
  refine ⟨BitO.toBytes (n.coder.encAll (lzssEncode text fs)), ?_, ?_⟩
  · unfold lzssLcpCompress
    rw [e1]
    simp only [e2]
  · rw [lzssLcpDecompress, bitsOf_toBytes]
    exact lzssDecodeBack_of_ops n.coder _ text fs (lzss_universal n text fs hlen ho) ho hm

example : (1 ≤ 2) ∧ IsSA [97, 98, 97, 98, 0] [4, 2, 0, 3, 1] ∧ Sentinel [97, 98, 97, 98, 0] := ⟨by decide, isSA_abab, sentinel_abab⟩

/-- a factor is found in it -/
example : lcpFactors ⟨[4, 2, 0, 3, 1], [2, 4, 1, 3, 0], [0, 0, 2, 0, 1]⟩ 5 2 = .ok [⟨2, 0, 2⟩] := by decide

/-- the infinite loop: with `threshold = 0` a position with no earlier occurrence is never left -/
theorem lcpFactorLoop_stuck {A : TextArrays} {n : Nat} {pp np : Nat} (hi : 0 + 1 < n) (h : lpfSearch A n 0 = .ok (pp, 0, np, 0)) (fuel : Nat) :
    ∃ e, lcpFactorLoop A n 0 fuel 0 = .error e := by
  induction fuel with
  | zero => exact ⟨_, rfl⟩
  | succ fuel ih =>
    obtain ⟨e, he⟩ := ih
    rw [lcpFactorLoop, if_pos hi, h]
    simp only [Nat.max_self, ge_iff_le, Nat.le_refl, if_true, Nat.add_zero]
    split
    · exact ⟨_, rfl⟩
    · rw [he]; exact ⟨_, rfl⟩

/-- **C16 (limit of the claim).** `threshold = 0` makes the compressor run forever or read out of bounds, for *every* text with at
least one character besides the sentinel. -/
theorem lzss_lcp_threshold_zero_broken (n : CoderName) (pk : Packs) (text : List UInt8) (sa : List Nat) (hsa : IsSA text sa)
    (hs : Sentinel text) (hlen : text.length < 2 ^ 32) (h2 : 2 ≤ text.length) :
    ∃ e, lzssLcpCompress n.coder pk 0 text sa = .error e := by
  obtain ⟨A, e1, hA⟩ := ArraysOk.of_textDS pk hsa hs (by omega)
  obtain ⟨pp, pl, np, nl, h, -, -, -, h0⟩ := lpfSearch_spec hA hs hlen (i := 0) (by omega)
  obtain ⟨rfl, rfl, -⟩ := h0 rfl
  obtain ⟨e, he⟩ := lcpFactorLoop_stuck (by omega : 0 + 1 < text.length) h (text.length + 1)
  refine ⟨e, ?_⟩
  unfold lzssLcpCompress
  rw [e1]
  simp only
  rw [show lcpFactors A text.length 0 = .error e from he]

end Tdc
