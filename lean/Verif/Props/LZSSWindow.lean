import Verif.Lemmas.LZSSWindow
import Verif.Props.BitIO

/-!
# Property C14: LZSS with a sliding window

`winCompress c w threshold text` are the bytes written by `lzss(coder = c, window = w, threshold = threshold)`.
-/

namespace Tdc

/-- **C14 (partial).** `lzss` reproduces every text for every window size `w ≥ 1` and threshold if the coder ignores ranges
(`ascii`, `gamma`, `delta`, `ternary`) or `w` is a power of two. What is missing is false of the code:
`lzss_window_zero_broken`, `lzss_window_bit_broken`. (`w < 2^62`, text shorter than 2^64: all lengths are `size_t`.) -/
theorem lzss_window_lossless_partial (n : CoderName) (w threshold : Nat) (text : List UInt8) (hw : 0 < w ∧ w < 2 ^ 62)
    (hlen : text.length < 2 ^ 64) (h : n ≠ .bit ∨ ∃ k, w = 2 ^ k) :
    ∃ bytes, winCompress n.coder w threshold text = .ok bytes ∧ winDecompress n.coder w bytes = .ok text := by
  refine win_roundtrip n.lawful w threshold hw.1 text hlen ?_
  intro v hv0 hv rest
  have hHas : (Rng.range 0 (2 * w - 1)).Has v := ⟨Nat.zero_le _, by show v ≤ 2 * w - 1; omega, by show 2 * w - 1 < 2 ^ 64; omega⟩
  have := n.lawful.dec_enc _ _ rest hHas
  by_cases hn : n = .bit
  · subst hn
    obtain ⟨k, rfl⟩ : ∃ k, w = 2 ^ k := by rcases h with h | h; exact absurd rfl h; exact h
    have e : bitsFor (2 ^ k - 0) = bitsFor (2 * 2 ^ k - 1 - 0) := by
      have h1 := bitsFor_exact (2 ^ k) (k + 1) (by omega)
      have h2 := bitsFor_exact (2 ^ k) k (by omega)
      have h3 := bitsFor_exact (2 * 2 ^ k - 1) (k + 1) (by omega)
      have h4 := bitsFor_exact (2 * 2 ^ k - 1) k (by omega)
      have hp : 2 ^ (k + 1) = 2 * 2 ^ k := by rw [Nat.pow_succ]; omega
      have hpos : 0 < 2 ^ k := Nat.pow_pos (by omega)
      have h5 := h1.mpr ⟨by omega, by omega⟩
      have h6 := mt h2.mp (by omega)
      have h7 := h3.mpr ⟨by omega, by omega⟩
      have h8 := mt h4.mp (by omega)
      simp only [Nat.sub_zero]
      omega
    obtain ⟨e1, e2⟩ := bitCoder_width 0 (2 ^ k) (2 * 2 ^ k - 1) e
    show bitCoder.dec _ (bitCoder.enc _ _ ++ _) = _
    rw [e1, e2]
    exact this
  · obtain ⟨e1, e2⟩ := dec_range_free n hn 0 w 0 (2 * w - 1)
    rw [e1, e2]
    exact this

/-- the default configuration -/
example : (0 < 16 ∧ 16 < 2 ^ 62) ∧ ([1, 2, 1, 2, 1, 2, 255, 0] : List UInt8).length < 2 ^ 64 ∧ (CoderName.bit ≠ .bit ∨ ∃ k, 16 = 2 ^ k) :=
  ⟨by decide, by decide, Or.inr ⟨4, rfl⟩⟩

/-- **C14 (negation).** With `window = 0` every text decompresses to the empty text, with every coder. -/
theorem lzss_window_zero_broken (n : CoderName) (threshold : Nat) (text : List UInt8) :
    ∃ bytes, winCompress n.coder 0 threshold text = .ok bytes ∧ winDecompress n.coder 0 bytes = .ok [] := by
  refine ⟨BitO.toBytes [], ?_, ?_⟩
  · simp [winCompress, winLoop, winInit, UCoder.encAll]
  · simp [winDecompress, bitsOf_toBytes, winDecLoop]

theorem matchLen_replicate (c : UInt8) (a b : Nat) : matchLen (List.replicate a c) (List.replicate b c) = min a b := by
  induction a generalizing b with
  | zero => simp [matchLen]
  | succ a ih =>
    cases b with
    | zero => simp [matchLen]
    | succ b => simp only [List.replicate_succ, matchLen, if_true, ih]; omega

theorem winAdvance_ins_nil (w n : Nat) (s : WinState) (h : s.ins = []) (hw : s.ahead + n ≤ s.buf.length) :
    (winAdvance w n s).ahead = s.ahead + n ∧ (winAdvance w n s).buf = s.buf := by
  induction n generalizing s with
  | zero => exact ⟨rfl, rfl⟩
  | succ n ih =>
    have hs : (winStep w s).ins = [] ∧ (winStep w s).ahead = s.ahead + 1 ∧ (winStep w s).buf = s.buf := by
      unfold winStep
      split
      · exact ⟨h, rfl, rfl⟩
      · rw [h]; cases s.eof <;> exact ⟨rfl, rfl, rfl⟩
    obtain ⟨a, b⟩ := ih (winStep w s) hs.1 (by rw [hs.2.1, hs.2.2]; omega)
    simp only [winAdvance]
    exact ⟨by omega, b.trans hs.2.2⟩

theorem copyFrom_replicate (c : UInt8) (n : Nat) : ∀ p src : Nat, src < p →
    copyFrom (List.replicate p c) src n = .ok (List.replicate (p + n) c) := by
  induction n with
  | zero => intro p src h; rfl
  | succ n ih =>
    intro p src h
    have hv : vget (List.replicate p c) src = .ok c := by
      unfold vget; rw [List.getElem?_replicate, if_pos h]
    rw [copyFrom, hv]
    simp only
    rw [show List.replicate p c ++ [c] = List.replicate (p + 1) c by rw [← List.replicate_succ'], ih (p + 1) (src + 1) (by omega)]
    rw [show p + 1 + n = p + (n + 1) by omega]

/-- **C14 (negation).** With the bit coder, *every* window size that is not a power of two corrupts some text: a match can be up to
`2w - 1` long but its length is written with as many bits as `w` has. (Threshold at most `2w - 1`, e.g. the default 3.) -/
theorem lzss_window_bit_broken (w threshold : Nat) (hw : 0 < w ∧ w < 2 ^ 62) (hn : ¬ ∃ k, w = 2 ^ k) (ht : threshold ≤ 2 * w - 1) :
    ∃ text bytes text', winCompress bitCoder w threshold text = .ok bytes ∧ winDecompress bitCoder w bytes = .ok text' ∧ text' ≠ text := by
  have hlaw : bitCoder.Lawful := CoderName.lawful .bit
  obtain ⟨b, hb⟩ : ∃ b, bitsFor w = b := ⟨_, rfl⟩
  have hb1 : 1 ≤ b ∧ w < 2 ^ b := (bitsFor_exact w b (by omega)).mp (by omega)
  have hb2 : 2 ^ b < 2 * w := by
    have h1 := mt (bitsFor_exact w (b - 1) (by omega)).mpr (by omega)
    obtain ⟨b', rfl⟩ : ∃ b', b = b' + 1 := ⟨b - 1, by omega⟩
    rw [Nat.add_sub_cancel] at h1
    have h2 : w ≠ 2 ^ b' := fun h => hn ⟨b', h⟩
    have h3 : 2 ^ (b' + 1) = 2 * 2 ^ b' := by rw [Nat.pow_succ]; omega
    have hw1 : w ≠ 1 := fun h => hn ⟨0, h⟩
    by_cases hb0 : b' = 0
    · subst hb0; omega
    · have : ¬ w < 2 ^ b' := fun h => h1 ⟨by omega, h⟩
      omega
  let ts : List Token := [(.bit, 0), (.literal, 97), (.bit, 1), (.range 0 1, 1), (.range 0 w, 2 * w - 1)]
  refine ⟨List.replicate (2 * w) 97, BitO.toBytes (bitCoder.encAll ts), List.replicate (1 + (2 * w - 1) % 2 ^ b) 97, ?_, ?_, ?_⟩
  · have hinit : winInit w (List.replicate (2 * w) 97) = ⟨List.replicate (2 * w) 97, 0, 0, [], false⟩ := by
      simp [winInit, List.take_replicate, List.drop_replicate]
    have hstep : winAdvance w 1 ⟨List.replicate (2 * w) 97, 0, 0, [], false⟩ = ⟨List.replicate (2 * w) 97, 1, 0, [], false⟩ := by
      simp [winAdvance, winStep, hw.1]
    have hlo : (if 1 > w then 1 - w else 0) = 0 := if_neg (by omega)
    have hsearch : winSearch (List.replicate (2 * w) 97) 1 threshold 1 0 (0, 0) = (0, 2 * w - 1) := by
      simp only [winSearch, List.drop_replicate, matchLen_replicate]
      rw [show min (2 * w - 0) (2 * w - 1) = 2 * w - 1 by omega, if_pos ⟨ht, by omega⟩]
    obtain ⟨a1, a2⟩ := winAdvance_ins_nil w (2 * w - 1) ⟨List.replicate (2 * w) 97, 1, 0, [], false⟩ rfl (by simp; omega)
    have hloop : winLoop w threshold (2 * w + 1) ⟨List.replicate (2 * w) 97, 0, 0, [], false⟩ = .ok ts := by
      obtain ⟨f, hf⟩ : ∃ f, 2 * w + 1 = f + 3 := ⟨2 * w - 2, by omega⟩
      rw [hf, winLoop]
      simp only [List.length_replicate]
      have hlo0 : (if 0 > w then 0 - w else 0) = 0 := by split <;> omega
      rw [if_pos (by omega), hlo0]
      simp only [Nat.sub_self, winSearch, Nat.lt_irrefl, if_false, hstep, gt_iff_lt]
      rw [winLoop]
      simp only [List.length_replicate]
      rw [if_pos (by omega), hlo, Nat.sub_zero, hsearch]
      simp only
      rw [if_pos (by omega), winLoop, a1, a2]
      simp only [List.length_replicate]
      rw [if_neg (by omega)]
      simp only
      have : (List.replicate (2 * w) (97 : UInt8)).getD 0 0 = 97 := by
        rw [List.getD_eq_getElem?_getD, List.getElem?_replicate, if_pos (by omega)]; rfl
      rw [this]
      rfl
    simp only [winCompress, hinit, List.length_replicate, hloop]
  · have hdecbits : ∀ rest, bitCoder.dec (.range 0 w) (bitCoder.enc (.range 0 w) (2 * w - 1) ++ rest) = .ok ((2 * w - 1) % 2 ^ b, rest) := by
      intro rest
      have hHas : (Rng.range 0 (2 ^ b - 1)).Has ((2 * w - 1) % 2 ^ b) := by
        have hpp : 0 < 2 ^ b := Nat.pow_pos (by omega)
        have := Nat.mod_lt (2 * w - 1) hpp
        exact ⟨Nat.zero_le _, by show _ ≤ 2 ^ b - 1; omega, by show 2 ^ b - 1 < 2 ^ 64; omega⟩
      have hx := hlaw.dec_enc _ _ rest hHas
      have hwid : bitsFor (w - 0) = bitsFor (2 ^ b - 1 - 0) := by
        simp only [Nat.sub_zero]
        have h3 := (bitsFor_exact (2 ^ b - 1) b (by omega)).mpr ⟨hb1.1, by omega⟩
        have h4 := mt (bitsFor_exact (2 ^ b - 1) (b - 1) (by omega)).mp (by
          intro h
          have : 2 ^ b = 2 ^ (b - 1) * 2 := by rw [← Nat.pow_succ]; congr 1; omega
          omega)
        omega
      obtain ⟨e1, e2⟩ := bitCoder_width 0 w (2 ^ b - 1) hwid
      rw [e1]
      have e3 : bitCoder.enc (.range 0 w) (2 * w - 1) = bitCoder.enc (.range 0 (2 ^ b - 1)) ((2 * w - 1) % 2 ^ b) := by
        rw [← e2]
        have h64 : ∀ x, x < 2 ^ 64 → (x + 2 ^ 64 - 0) % 2 ^ 64 = x := by intro x hx; omega
        have hlt := Nat.mod_lt (2 * w - 1) (show 0 < 2 ^ b from Nat.pow_pos (by omega))
        simp only [bitCoder, Rng.max, Rng.min, Nat.sub_zero, hb]
        rw [show (2 * w - 1 + 2 ^ 64) % 2 ^ 64 = 2 * w - 1 by omega, Nat.add_mod_right, Nat.mod_eq_of_lt (by omega : (2 * w - 1) % 2 ^ b < 2 ^ 64)]
        have : ∀ k, k ≤ b → writeInt (2 * w - 1) k = writeInt ((2 * w - 1) % 2 ^ b) k := by
          intro k
          induction k with
          | zero => intro _; rfl
          | succ k ih =>
            intro hk
            simp only [writeInt]
            rw [ih (by omega), Nat.testBit_mod_two_pow]
            simp [show k < b by omega]
        exact this b (by omega)
      rw [e3]
      exact hx
    simp only [winDecompress, bitsOf_toBytes, ts, UCoder.encAll, List.flatMap_cons, List.flatMap_nil, List.append_assoc]
    have h1 : Rng.bit.Has 0 := by decide
    have h2 : Rng.literal.Has 97 := by decide
    have h3 : Rng.bit.Has 1 := by decide
    have h4 : (Rng.range 0 1).Has 1 := by decide
    have hlen1 := List.length_pos_iff.mpr (hlaw.enc_ne_nil _ _ h1)
    have hlen3 := List.length_pos_iff.mpr (hlaw.enc_ne_nil _ _ h3)
    generalize hfu : (bitCoder.enc Rng.bit 0 ++ _).length = fuel
    simp only [List.length_append] at hfu
    obtain ⟨f, rfl⟩ : ∃ f, fuel = f + 2 := ⟨fuel - 2, by omega⟩
    rw [winDecLoop, isEmpty_enc hlaw h1]
    simp only [Bool.false_eq_true, if_false]
    rw [hlaw.dec_enc _ _ _ h1]
    simp only [ne_eq, not_true_eq_false, if_false]
    rw [hlaw.dec_enc _ _ _ h2]
    simp only [List.nil_append]
    rw [winDecLoop, isEmpty_enc hlaw h3]
    simp only [Bool.false_eq_true, if_false]
    rw [hlaw.dec_enc _ _ _ h3]
    simp only [ne_eq, Nat.one_ne_zero, not_false_eq_true, if_true, List.length_singleton]
    rw [hlaw.dec_enc _ _ _ h4]
    simp only
    rw [hdecbits]
    have hc := copyFrom_replicate 97 ((2 * w - 1) % 2 ^ b) 1 0 (by omega)
    simp only [List.replicate_one] at hc
    have hm : (1 + 2 ^ 64 - 1) % 2 ^ 64 = 0 := by decide
    have hofn : UInt8.ofNat 97 = 97 := rfl
    simp only [hm, hofn, hc]
    rw [winDecLoop]
    simp
  · intro h
    have := congrArg List.length h
    simp only [List.length_replicate] at this
    have hlt := Nat.mod_lt (2 * w - 1) (show 0 < 2 ^ b from Nat.pow_pos (by omega))
    omega

/-- the smallest window size affected, with the default threshold -/
example : ¬ ∃ k, 3 = 2 ^ k := by
  rintro ⟨k, hk⟩
  rcases k with _ | _ | k
  · simp at hk
  · simp at hk
  · rw [Nat.pow_succ, Nat.pow_succ] at hk
    have : 0 < 2 ^ k := Nat.pow_pos (by omega)
    omega

/-! ## The emitted match is a longest one -/

theorem winSearch_max (buf : List UInt8) (ahead threshold n : Nat) : ∀ (k : Nat) (best : Nat × Nat) (k' : Nat),
    (best.2 ≤ (winSearch buf ahead threshold n k best).2) ∧
    (k ≤ k' → k' < k + n → threshold ≤ matchLen (buf.drop k') (buf.drop ahead) →
      matchLen (buf.drop k') (buf.drop ahead) ≤ (winSearch buf ahead threshold n k best).2) := by
  induction n with
  | zero => intro k best k'; exact ⟨Nat.le_refl _, fun h1 h2 => by omega⟩
  | succ n ih =>
    intro k best k'
    simp only [winSearch]
    obtain ⟨h1, h2⟩ := ih (k + 1) (if matchLen (buf.drop k) (buf.drop ahead) ≥ threshold ∧ matchLen (buf.drop k) (buf.drop ahead) > best.2
      then (k, matchLen (buf.drop k) (buf.drop ahead)) else best) k'
    refine ⟨Nat.le_trans ?_ h1, ?_⟩
    · split
      · simp only; omega
      · exact Nat.le_refl _
    · intro h3 h4 h5
      by_cases hk : k' = k
      · subst hk
        refine Nat.le_trans ?_ h1
        split
        · exact Nat.le_refl _
        · rename_i hx; simp only [not_and, Nat.not_lt] at hx; exact hx h5
      · exact h2 (by omega) (by omega) h5

end Tdc
