import Verif.Lemmas.BitIO

/-! Helper lemmas for the integer codes. -/

namespace Tdc

theorem bitsFor_eq (n : Nat) (h : n < 2 ^ 64) : bitsFor n = if n = 0 then 1 else n.log2 + 1 := by
  unfold bitsFor bitsHi clz64
  split
  · rfl
  · have : n.log2 < 64 := (Nat.log2_lt (by omega)).mpr h
    omega

theorem bitsFor_pos (n : Nat) (h : n < 2 ^ 64) : 0 < bitsFor n := by
  rw [bitsFor_eq n h]; split <;> omega

theorem lt_two_pow_bitsFor (n : Nat) (h : n < 2 ^ 64) : n < 2 ^ bitsFor n := by
  rw [bitsFor_eq n h]; split
  · omega
  · exact Nat.lt_log2_self

theorem two_pow_le_of_bitsFor (n : Nat) (hn : n ≠ 0) (h : n < 2 ^ 64) : 2 ^ (bitsFor n - 1) ≤ n := by
  rw [bitsFor_eq n h, if_neg hn]
  exact Nat.log2_self_le hn

theorem bitsFor_le_64 (n : Nat) (h : n < 2 ^ 64) : bitsFor n ≤ 64 := by
  rw [bitsFor_eq n h]; split
  · omega
  · have : n.log2 < 64 := (Nat.log2_lt (by omega)).mpr h
    omega

theorem writeInt_length (v b : Nat) : (writeInt v b).length = b := by
  induction b with
  | zero => rfl
  | succ b ih => simp [writeInt, ih]

theorem mod_two_pow_succ' (v n : Nat) : v % 2 ^ (n + 1) = (v.testBit n).toNat * 2 ^ n + v % 2 ^ n := by
  rw [Nat.mod_pow_succ, Nat.toNat_testBit, Nat.mul_comm, Nat.add_comm]

theorem rdIntAcc_writeInt (w v n acc : Nat) (r : List Bool) (h : acc * 2 ^ n + v % 2 ^ n < 2 ^ w) :
    rdIntAcc w n acc (writeInt v n ++ r) = (acc * 2 ^ n + v % 2 ^ n, r) := by
  induction n generalizing acc with
  | zero => simp [rdIntAcc, writeInt, Nat.mod_one]
  | succ n ih =>
    simp only [rdIntAcc, writeInt, List.cons_append, rdBit]
    rw [mod_two_pow_succ'] at h ⊢
    have e : acc * 2 ^ (n + 1) + ((v.testBit n).toNat * 2 ^ n + v % 2 ^ n)
        = (acc * 2 + (v.testBit n).toNat) * 2 ^ n + v % 2 ^ n := by
      rw [Nat.pow_succ, Nat.add_mul, Nat.mul_assoc, Nat.mul_comm (2 ^ n) 2, Nat.add_assoc]
    rw [e] at h ⊢
    have hlt : acc * 2 + (v.testBit n).toNat < 2 ^ w := by
      have h1 : 1 ≤ 2 ^ n := Nat.one_le_two_pow
      have h2 : (acc * 2 + (v.testBit n).toNat) * 1 ≤ (acc * 2 + (v.testBit n).toNat) * 2 ^ n :=
        Nat.mul_le_mul_left _ h1
      omega
    rw [Nat.mod_eq_of_lt hlt]
    exact ih _ h

/-- Reading back `n ≤ w` bits of `v` gives `v` modulo `2^n`. -/
theorem rdInt_writeInt_mod (w v n : Nat) (r : List Bool) (h : n ≤ w) :
    rdInt w n (writeInt v n ++ r) = (v % 2 ^ n, r) := by
  have h1 : v % 2 ^ n < 2 ^ n := Nat.mod_lt _ (Nat.two_pow_pos n)
  have h2 : 2 ^ n ≤ 2 ^ w := Nat.pow_le_pow_right (by omega) h
  have := rdIntAcc_writeInt w v n 0 r (by omega)
  simpa [rdInt] using this

theorem rdInt_writeInt (w v n : Nat) (r : List Bool) (hv : v < 2 ^ n) (hw : v < 2 ^ w) :
    rdInt w n (writeInt v n ++ r) = (v, r) := by
  have := rdIntAcc_writeInt w v n 0 r (by rw [Nat.mod_eq_of_lt hv]; omega)
  simpa [rdInt, Nat.mod_eq_of_lt hv] using this

theorem rdUnary_writeUnary (v : Nat) (r : List Bool) : rdUnary (writeUnary v ++ r) = .ok (v, r) := by
  induction v with
  | zero => simp [writeUnary, rdUnary]
  | succ v ih => simp [writeUnary, rdUnary, ih]

theorem rdGamma_writeGamma (w v : Nat) (r : List Bool) (hv : v < 2 ^ 64) (hw : v < 2 ^ w) :
    rdGamma w (writeGamma v ++ r) = .ok (v, r) := by
  simp only [rdGamma, writeGamma, List.append_assoc, rdUnary_writeUnary]
  rw [rdInt_writeInt w v _ r (lt_two_pow_bitsFor v hv) hw]

theorem rdDelta_writeDelta (w v : Nat) (r : List Bool) (hv : v < 2 ^ 64) (hw : v < 2 ^ w) :
    rdDelta w (writeDelta v ++ r) = .ok (v, r) := by
  have h64 := bitsFor_le_64 v hv
  have : bitsFor v < 2 ^ 64 := by omega
  simp only [rdDelta, writeDelta, List.append_assoc, rdGamma_writeGamma 64 _ _ this this]
  rw [rdInt_writeInt w v _ r (lt_two_pow_bitsFor v hv) hw]

theorem writeInt_two (m : Nat) : writeInt m 2 = [m.testBit 1, m.testBit 0] := rfl

theorem digit3 (m : Nat) (h : m < 4) : 2 * (m.testBit 1).toNat + (m.testBit 0).toNat = m := by
  have : m = 0 ∨ m = 1 ∨ m = 2 ∨ m = 3 := by omega
  rcases this with h | h | h | h <;> subst h <;> rfl

/-- The digit loop: `mod` is the digit already read, the remaining input is the rest of the digits. -/
theorem rdTernaryLoop_spec (w : Nat) (v acc b : Nat) (r : List Bool) (hb : 1 ≤ b)
    (hw : acc + v * b + 1 < 2 ^ w ∨ acc + v * b + 1 = 2 ^ w ∧ False)
    (h64 : v * b < 2 ^ 64) :
    rdTernaryLoop w acc b (v % 3)
      ((if v / 3 = 0 then [] else writeTernaryLoop (v / 3)) ++ writeInt 3 2 ++ r)
      = .ok (acc + v * b + 1, r) := by
  have hw' : acc + v * b + 1 < 2 ^ w := by rcases hw with h | h; exact h; exact h.2.elim
  clear hw
  induction v using Nat.strongRecOn generalizing acc b with
  | ind v ih =>
    have hdm : v = 3 * (v / 3) + v % 3 := by omega
    have hvb : v * b = (v / 3) * (b * 3) + (v % 3) * b := by
      have := congrArg (· * b) hdm
      simp only [Nat.add_mul] at this
      rw [this, Nat.mul_comm 3, Nat.mul_assoc, Nat.mul_comm 3 b]
    have hmod : (acc + v % 3 * b) % 2 ^ w = acc + v % 3 * b := Nat.mod_eq_of_lt (by omega)
    by_cases h0 : v / 3 = 0
    · rw [if_pos h0, writeInt_two]
      simp only [List.nil_append, List.cons_append, rdTernaryLoop, hmod]
      have : v % 3 * b = v * b := by rw [hvb, h0]; simp
      rw [this]
      simp [Nat.mod_eq_of_lt hw', Nat.testBit]
    · rw [if_neg h0, writeTernaryLoop, writeInt_two]
      simp only [List.append_assoc, List.cons_append, List.nil_append, rdTernaryLoop, hmod]
      have hlt : v / 3 % 3 < 4 := by omega
      rw [digit3 _ hlt, if_pos (by omega)]
      have hq : 1 ≤ v / 3 := by omega
      have hb3 : b * 3 < 2 ^ 64 := by
        have : 1 * (b * 3) ≤ (v / 3) * (b * 3) := Nat.mul_le_mul_right _ hq
        omega
      rw [Nat.mod_eq_of_lt hb3]
      have := ih (v / 3) (by omega) (acc + v % 3 * b) (b * 3) (by omega) (by omega) (by omega)
      simp only [List.append_assoc] at this
      simp only [dite_eq_ite]
      rw [this]
      congr 2; omega

theorem rdTernary_writeTernary (w v : Nat) (r : List Bool) (hv : v < 2 ^ 64) (hw : v < 2 ^ w) :
    rdTernary w (writeTernary v ++ r) = .ok (v, r) := by
  unfold rdTernary writeTernary
  by_cases h0 : v = 0
  · subst h0
    simp only [ne_eq, not_true_eq_false, if_false, List.nil_append]
    rw [rdInt_writeInt 64 3 2 r (by omega) (by omega)]
    simp
  · rw [if_pos h0, writeTernaryLoop]
    simp only [List.append_assoc]
    have hm : (v - 1) % 3 < 2 ^ 2 := by omega
    rw [rdInt_writeInt 64 _ 2 _ hm (by omega)]
    have := rdTernaryLoop_spec w (v - 1) 0 1 r (by omega) (Or.inl (by omega)) (by omega)
    simp only [List.append_assoc] at this
    have hm3 : (v - 1) % 3 < 3 := by omega
    simp only [dite_eq_ite, hm3, if_true]
    rw [this]
    congr 2; omega

/-- The mask of `write_compressed_int` always keeps the low `b` bits. -/
theorem cint_mask_testBit (v b i : Nat) (hb : b < 64) (hi : i < b) :
    (((v <<< b) + (2 ^ 64 - 1)) % 2 ^ 64).testBit i = true := by
  have h1 : (((v <<< b) + (2 ^ 64 - 1)) % 2 ^ 64) % 2 ^ b = 2 ^ b - 1 := by
    rw [Nat.mod_mod_of_dvd _ (Nat.pow_dvd_pow 2 (by omega)), Nat.shiftLeft_eq]
    have h64 : 2 ^ 64 = 2 ^ b * 2 ^ (64 - b) := by rw [← Nat.pow_add]; congr 1; omega
    have hpos : 1 ≤ 2 ^ (64 - b) := Nat.one_le_two_pow
    have hposb : 1 ≤ 2 ^ b := Nat.one_le_two_pow
    have e : 2 ^ 64 - 1 = 2 ^ b * (2 ^ (64 - b) - 1) + (2 ^ b - 1) := by
      rw [h64, Nat.mul_sub]
      have : 2 ^ b * 1 ≤ 2 ^ b * 2 ^ (64 - b) := Nat.mul_le_mul_left _ hpos
      omega
    rw [e, Nat.mul_comm v, ← Nat.add_assoc, ← Nat.mul_add, Nat.mul_add_mod]
    exact Nat.mod_eq_of_lt (by omega)
  have h2 := Nat.testBit_mod_two_pow (((v <<< b) + (2 ^ 64 - 1)) % 2 ^ 64) b i
  rw [h1, Nat.testBit_two_pow_sub_one] at h2
  simpa [hi] using h2

theorem writeInt_congr (u v n : Nat) (h : ∀ i < n, u.testBit i = v.testBit i) :
    writeInt u n = writeInt v n := by
  induction n with
  | zero => rfl
  | succ n ih => simp only [writeInt]; rw [h n (by omega), ih (fun i hi => h i (by omega))]

theorem rdCIntLoop_spec (mask b : Nat) (hb : 0 < b) (hb64 : b < 64)
    (hm : ∀ i < b, mask.testBit i = true) (v i acc fuel : Nat) (r : List Bool)
    (hv : v <<< (b * i) < 2 ^ 64) (hi : b * i < 64) (hacc : acc < 2 ^ (b * i))
    (hf : (writeCIntLoop mask b v).length < fuel) :
    rdCIntLoop b fuel i acc (writeCIntLoop mask b v ++ r)
      = .ok (acc + v <<< (b * i), r) := by
  induction v using Nat.strongRecOn generalizing i acc fuel with
  | ind v ih =>
    obtain ⟨fuel, rfl⟩ : ∃ f, fuel = f + 1 := ⟨fuel - 1, by omega⟩
    rw [writeCIntLoop] at hf ⊢
    simp only [List.cons_append, rdCIntLoop, rdBit, List.append_assoc]
    rw [writeInt_congr (v &&& mask) v b (fun i hi => by rw [Nat.testBit_and, hm i hi, Bool.and_true])]
    rw [rdInt_writeInt_mod 64 v b _ (by omega)]
    simp only []
    rw [if_neg (by omega)]
    have hdm : v = 2 ^ b * (v >>> b) + v % 2 ^ b := by
      rw [Nat.shiftRight_eq_div_pow]; exact (Nat.div_add_mod v (2 ^ b)).symm
    have hle : (v % 2 ^ b) <<< (b * i) ≤ v <<< (b * i) := by
      rw [Nat.shiftLeft_eq, Nat.shiftLeft_eq]
      exact Nat.mul_le_mul_right _ (Nat.mod_le _ _)
    have hor : acc ||| ((v % 2 ^ b) <<< (b * i)) % 2 ^ 64 = acc + (v % 2 ^ b) <<< (b * i) := by
      rw [Nat.mod_eq_of_lt (by omega), Nat.or_comm, ← Nat.shiftLeft_add_eq_or_of_lt hacc, Nat.add_comm]
    rw [hor]
    by_cases hgt : v >>> b > 0
    · rw [dif_pos ⟨hgt, hb⟩] at hf ⊢
      simp only [hgt, decide_true, if_true]
      have hvsub : v >>> b < v := by
        have hv0 : 0 < v := Nat.pos_of_ne_zero (by rintro rfl; simp at hgt)
        rw [Nat.shiftRight_eq_div_pow]
        exact Nat.div_lt_self hv0 (Nat.one_lt_two_pow (by omega))
      have hs : v <<< (b * i) = (v >>> b) <<< (b * (i + 1)) + (v % 2 ^ b) <<< (b * i) := by
        simp only [Nat.shiftLeft_eq]
        conv => lhs; rw [hdm]
        rw [Nat.add_mul, Nat.mul_add b i 1, Nat.pow_add, Nat.mul_one, Nat.mul_comm (2 ^ b) (v >>> b), Nat.mul_assoc,
          Nat.mul_comm (2 ^ b)]
      have hlt1 : (v >>> b) <<< (b * (i + 1)) < 2 ^ 64 :=
        Nat.lt_of_le_of_lt (hs ▸ Nat.le_add_right _ _) hv
      have hi1 : b * (i + 1) < 64 := by
        have h1 : 1 <<< (b * (i + 1)) ≤ (v >>> b) <<< (b * (i + 1)) := by
          rw [Nat.shiftLeft_eq, Nat.shiftLeft_eq]; exact Nat.mul_le_mul_right _ hgt
        rw [Nat.shiftLeft_eq, Nat.one_mul] at h1
        exact (Nat.pow_lt_pow_iff_right (by omega : 1 < 2)).mp (Nat.lt_of_le_of_lt h1 hlt1)
      have hacc1 : acc + (v % 2 ^ b) <<< (b * i) < 2 ^ (b * (i + 1)) := by
        rw [Nat.shiftLeft_eq, Nat.mul_add b i 1, Nat.pow_add, Nat.mul_one]
        have h1 : v % 2 ^ b + 1 ≤ 2 ^ b := Nat.mod_lt _ (Nat.two_pow_pos b)
        have h2 : (v % 2 ^ b + 1) * 2 ^ (b * i) ≤ 2 ^ b * 2 ^ (b * i) := Nat.mul_le_mul_right _ h1
        rw [Nat.add_mul, Nat.mul_comm (2 ^ b)] at h2
        omega
      have := ih (v >>> b) hvsub (i + 1) (acc + (v % 2 ^ b) <<< (b * i)) fuel hlt1 hi1 hacc1 (by
        simp at hf; omega)
      rw [this, hs, Nat.add_assoc, Nat.add_comm ((v % 2 ^ b) <<< (b * i))]
    · rw [dif_neg (fun h => hgt h.1)]
      simp only [hgt, decide_false, Bool.false_eq_true, if_false, List.nil_append]
      have : v % 2 ^ b = v := by
        have h0 : v >>> b = 0 := Nat.eq_zero_of_not_pos hgt
        rw [h0, Nat.mul_zero, Nat.zero_add] at hdm; exact hdm.symm
      rw [this]

theorem rdCInt_writeCInt (v b : Nat) (r : List Bool) (hb : 0 < b) (hb64 : b < 64) (hv : v < 2 ^ 64) :
    rdCInt b (writeCInt v b ++ r) = .ok (v, r) := by
  unfold rdCInt writeCInt
  have := rdCIntLoop_spec _ b hb hb64 (fun i hi => cint_mask_testBit v b i hb64 hi) v 0 0
    ((writeCIntLoop (((v <<< b) + (2 ^ 64 - 1)) % 2 ^ 64) b v ++ r).length + 1) r (by simpa using hv) (by omega)
    (by simp) (by simp; omega)
  simpa using this

end Tdc
