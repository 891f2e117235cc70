import Verif.Model.Coders
import Verif.Lemmas.IntCodes

namespace Tdc

theorem bit_toNat (v : Nat) (h : v ≤ 1) : (!decide (v = 0)).toNat = v := by
  have : v = 0 ∨ v = 1 := by omega
  rcases this with h | h <;> subst h <;> rfl

theorem writeInt_ne_nil (v b : Nat) (hb : 0 < b) : writeInt v b ≠ [] := by
  intro h; have := writeInt_length v b; rw [h] at this; simp at this; omega

theorem bitCoder_nonbit (r : Rng) (hr : r ≠ .bit) (v : Nat) (bs : List Bool) :
    bitCoder.enc r v = writeInt ((v + 2 ^ 64 - r.min) % 2 ^ 64) (bitsFor (r.max - r.min)) ∧
    bitCoder.dec r bs = .ok ((r.min + (rdInt 64 (bitsFor (r.max - r.min)) bs).1) % 2 ^ 64,
      (rdInt 64 (bitsFor (r.max - r.min)) bs).2) := by
  cases r <;> first | exact absurd rfl hr | exact ⟨rfl, rfl⟩

theorem bitCoder_lawful : bitCoder.Lawful where
  dec_enc r v rest h := by
    by_cases hr : r = .bit
    · subst hr
      simp [bitCoder, rdBit, bit_toNat v h.2.1]
    · obtain ⟨h1, h2, h3⟩ := h
      rw [(bitCoder_nonbit r hr v []).1, (bitCoder_nonbit r hr v _).2]
      have hd : r.max - r.min < 2 ^ 64 := by omega
      have hx : (v + 2 ^ 64 - r.min) % 2 ^ 64 = v - r.min := by
        rw [show v + 2 ^ 64 - r.min = (v - r.min) + 2 ^ 64 by omega, Nat.add_mod_right]
        exact Nat.mod_eq_of_lt (by omega)
      rw [hx, rdInt_writeInt 64 (v - r.min) _ rest
        (Nat.lt_of_le_of_lt (by omega) (lt_two_pow_bitsFor _ hd)) (by omega)]
      simp only
      rw [show r.min + (v - r.min) = v by omega, Nat.mod_eq_of_lt (by omega)]
  enc_ne_nil r v h := by
    by_cases hr : r = .bit
    · subst hr; simp [bitCoder]
    · rw [(bitCoder_nonbit r hr v []).1]
      exact writeInt_ne_nil _ _ (bitsFor_pos _ (by have := h.2.2; omega))

theorem has_lt {r : Rng} {v : Nat} (h : r.Has v) : v < 2 ^ 64 := Nat.lt_of_le_of_lt h.2.1 h.2.2

theorem writeUnary_ne_nil (v : Nat) : writeUnary v ≠ [] := by cases v <;> simp [writeUnary]

theorem gammaCoder_lawful : gammaCoder.Lawful where
  dec_enc r v rest h := by
    cases r
    case bit => simp [gammaCoder, rdBit, bit_toNat v h.2.1]
    all_goals exact rdGamma_writeGamma 64 v rest (has_lt h) (has_lt h)
  enc_ne_nil r v h := by
    cases r <;> simp [gammaCoder, writeGamma, writeUnary_ne_nil]

theorem deltaCoder_lawful : deltaCoder.Lawful where
  dec_enc r v rest h := by
    cases r
    case bit => simp [deltaCoder, rdBit, bit_toNat v h.2.1]
    all_goals exact rdDelta_writeDelta 64 v rest (has_lt h) (has_lt h)
  enc_ne_nil r v h := by
    cases r <;> simp [deltaCoder, writeDelta, writeGamma, writeUnary_ne_nil]

theorem ternaryCoder_lawful : ternaryCoder.Lawful where
  dec_enc r v rest h := by
    cases r
    case bit => simp [ternaryCoder, rdBit, bit_toNat v h.2.1]
    all_goals exact rdTernary_writeTernary 64 v rest (has_lt h) (has_lt h)
  enc_ne_nil r v h := by
    cases r <;> simp [ternaryCoder, writeTernary, writeInt]

theorem rdInt8 (v : Nat) (hv : v < 256) (rest : List Bool) :
    rdInt 8 8 (writeInt v 8 ++ rest) = (v, rest) := rdInt_writeInt 8 v 8 rest (by omega) (by omega)

theorem rdDigits_spec (ds : List Nat) (hd : ∀ d ∈ ds, d < 10) (rest : List Bool) (fuel : Nat)
    (hf : ds.length < fuel) :
    rdDigits fuel (ds.flatMap (fun d => writeInt (48 + d) 8) ++ (writeInt 58 8 ++ rest)) = .ok (ds, rest) := by
  induction ds generalizing fuel with
  | nil =>
    obtain ⟨fuel, rfl⟩ : ∃ f, fuel = f + 1 := ⟨fuel - 1, by simp at hf; omega⟩
    simp only [rdDigits, List.flatMap_nil, List.nil_append, rdInt8 58 (by omega)]
    simp
  | cons d ds ih =>
    obtain ⟨fuel, rfl⟩ : ∃ f, fuel = f + 1 := ⟨fuel - 1, by simp at hf; omega⟩
    have hd0 : d < 10 := hd d (by simp)
    simp only [rdDigits, List.flatMap_cons, List.append_assoc, rdInt8 (48 + d) (by omega)]
    rw [if_pos (by omega), ih (fun x hx => hd x (by simp [hx])) fuel (by simp at hf; omega)]
    simp

theorem decDigits_lt (v : Nat) : ∀ d ∈ decDigits v, d < 10 := by
  induction v using Nat.strongRecOn with
  | ind v ih =>
    rw [decDigits]
    split
    · simpa
    · intro d hd
      simp only [List.mem_append, List.mem_singleton] at hd
      rcases hd with hd | rfl
      · exact ih (v / 10) (by omega) d hd
      · omega

theorem decDigits_value (v : Nat) : (decDigits v).foldl (fun a d => a * 10 + d) 0 = v := by
  induction v using Nat.strongRecOn with
  | ind v ih =>
    rw [decDigits]
    split
    · simp
    · rw [List.foldl_append, ih (v / 10) (by omega)]
      simp; omega

theorem asciiCoder_lawful : asciiCoder.Lawful where
  dec_enc r v rest h := by
    cases r with
    | literal =>
      have hv : v < 256 := by have := h.2.1; simp only [Rng.max] at this; omega
      simp only [asciiCoder, Nat.mod_eq_of_lt hv, rdInt8 v hv]
    | bit =>
      have hv : v = 0 ∨ v = 1 := by have := h.2.1; simp only [Rng.max] at this; omega
      rcases hv with rfl | rfl
      · simp [asciiCoder, rdInt8 48 (by omega)]
      · simp [asciiCoder, rdInt8 49 (by omega)]
    | range a b =>
      simp only [asciiCoder, List.append_assoc]
      rw [rdDigits_spec _ (decDigits_lt v)]
      · simp [parseDec, decDigits_value]
        intro hge; have := has_lt h; omega
      · rw [List.length_append, List.length_flatMap]
        simp only [writeInt_length, List.map_const', List.sum_replicate_nat]
        omega
  enc_ne_nil r v h := by
    cases r <;> simp [asciiCoder, writeInt]

theorem CoderName.lawful (n : CoderName) : n.coder.Lawful := by
  cases n
  · exact asciiCoder_lawful
  · exact bitCoder_lawful
  · exact gammaCoder_lawful
  · exact deltaCoder_lawful
  · exact ternaryCoder_lawful

theorem UCoder.Lawful.decAll {c : UCoder} (hc : c.Lawful) (ts : List Token)
    (h : ∀ t ∈ ts, t.1.Has t.2) (rest : List Bool) :
    c.decAll (ts.map (·.1)) (c.encAll ts ++ rest) = .ok (ts.map (·.2), rest) := by
  induction ts with
  | nil => rfl
  | cons t ts ih =>
    simp only [List.map_cons, UCoder.encAll, List.flatMap_cons, List.append_assoc, UCoder.decAll]
    rw [hc.dec_enc _ _ _ (h t (by simp))]
    simp only []
    have := ih (fun t ht => h t (by simp [ht]))
    rw [UCoder.encAll] at this
    rw [this]

theorem UCoder.Lawful.encAll_eq_nil {c : UCoder} (hc : c.Lawful) (ts : List Token)
    (h : ∀ t ∈ ts, t.1.Has t.2) : c.encAll ts = [] ↔ ts = [] := by
  constructor
  · intro e
    cases ts with
    | nil => rfl
    | cons t ts =>
      simp only [UCoder.encAll, List.flatMap_cons, List.append_eq_nil_iff] at e
      exact absurd e.1 (hc.enc_ne_nil _ _ (h t (by simp)))
  · rintro rfl; rfl

/-- Signed-`char` literals: the byte-oriented coders are insensitive to the sign. -/
theorem bitCoder_schar (c : UInt8) : bitCoder.encSChar c = some (bitCoder.enc .literal c.toNat) := by
  have hc := c.toNat_lt
  rw [(bitCoder_nonbit .literal (by simp) _ []).1]
  simp only [bitCoder, Rng.max, Rng.min, Nat.sub_zero, Nat.add_mod_right]
  congr 1
  apply writeInt_congr
  intro i hi
  have h8 : i < 8 := by
    have : bitsFor 255 = 8 := by decide
    rwa [this] at hi
  have : toSizeT (schar c) % 2 ^ 8 = (c.toNat % 2 ^ 64) % 2 ^ 8 := by
    unfold toSizeT schar
    split <;> omega
  have h1 := Nat.testBit_mod_two_pow (toSizeT (schar c)) 8 i
  have h2 := Nat.testBit_mod_two_pow (c.toNat % 2 ^ 64) 8 i
  rw [this, h2] at h1
  simpa [h8] using h1.symm

theorem asciiCoder_schar (c : UInt8) : asciiCoder.encSChar c = some (asciiCoder.enc .literal c.toNat) := rfl

/-- Coders whose codes do not depend on the range. -/
theorem dec_range_free (n : CoderName) (hn : n ≠ .bit) (a b a' b' : Nat) :
    n.coder.dec (.range a b) = n.coder.dec (.range a' b') ∧ n.coder.enc (.range a b) = n.coder.enc (.range a' b') := by
  cases n <;> first | exact ⟨rfl, rfl⟩ | exact absurd rfl hn

/-- The bit coder's codes depend only on the minimum and the bit width of the range. -/
theorem bitCoder_width (a b b' : Nat) (h : bitsFor (b - a) = bitsFor (b' - a)) :
    bitCoder.dec (.range a b) = bitCoder.dec (.range a b') ∧ bitCoder.enc (.range a b) = bitCoder.enc (.range a b') := by
  constructor
  · funext bs
    simp only [bitCoder, Rng.max, Rng.min, h]
  · funext v
    simp only [bitCoder, Rng.max, Rng.min, h]

end Tdc
