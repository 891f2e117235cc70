import Verif.Lemmas.Coders
import Verif.Model.VByte

/-!
# Properties C05, C06: vbyte and the universal coders
-/

namespace Tdc

theorem readVByteAux_spec (v acc k : Nat) (rest : List UInt8) (hv : v * 2 ^ (7 * k) < 2 ^ 64)
    (hk : 7 * k < 64) (hacc : acc < 2 ^ (7 * k)) :
    readVByteAux 64 acc k (writeVByte v ++ rest) = .ok (acc + v * 2 ^ (7 * k), rest) := by
  induction v using Nat.strongRecOn generalizing acc k with
  | ind v ih =>
    rw [writeVByte]
    have hdm : v = v / 128 * 128 + v % 128 := by omega
    have hlow : (v % 128) * 2 ^ (7 * k) ≤ v * 2 ^ (7 * k) := Nat.mul_le_mul_right _ (Nat.mod_le _ _)
    have hor : ∀ d, d = v % 128 → acc ||| ((d <<< (7 * k)) % 2 ^ 64) = acc + (v % 128) * 2 ^ (7 * k) := by
      rintro d rfl
      rw [Nat.shiftLeft_eq, Nat.mod_eq_of_lt (by omega), ← Nat.shiftLeft_eq, Nat.or_comm,
        ← Nat.shiftLeft_add_eq_or_of_lt hacc, Nat.add_comm]
    by_cases hgt : v / 128 > 0
    · simp only [hgt, dite_true, List.cons_append, readVByteAux]
      have hb : (UInt8.ofNat (v % 128 + 128)).toNat = v % 128 + 128 := by
        rw [UInt8.toNat_ofNat']; omega
      have h127 : (v % 128 + 128) &&& 127 = v % 128 := by
        rw [show 127 = 2 ^ 7 - 1 by rfl, Nat.and_two_pow_sub_one_eq_mod]; omega
      have h128 : (v % 128 + 128) &&& 128 ≠ 0 := by
        intro h
        have := congrArg (fun n => n.testBit 7) h
        rw [show 128 = 2 ^ 7 by rfl] at this
        simp only [Nat.testBit_and, Nat.testBit_two_pow_self, Nat.zero_testBit, Bool.and_true] at this
        have h2 : v % 128 < 2 ^ 7 := by omega
        rw [Nat.add_comm, Nat.testBit_two_pow_add_eq, Nat.testBit_lt_two_pow h2] at this
        simp at this
      rw [if_neg (by omega), hb, h127, hor _ rfl, if_neg h128]
      have hq : v * 2 ^ (7 * k) = (v / 128) * 2 ^ (7 * (k + 1)) + (v % 128) * 2 ^ (7 * k) := by
        rw [Nat.mul_add 7 k 1, Nat.pow_add]
        have : v / 128 * (2 ^ (7 * k) * 2 ^ (7 * 1)) = (v / 128 * 128) * 2 ^ (7 * k) := by
          rw [Nat.mul_comm (2 ^ (7 * k)), ← Nat.mul_assoc]
        rw [this, ← Nat.add_mul, ← hdm]
      have h1 : (v / 128) * 2 ^ (7 * (k + 1)) < 2 ^ 64 := by omega
      have h2 : 7 * (k + 1) < 64 := by
        have : 1 * 2 ^ (7 * (k + 1)) ≤ (v / 128) * 2 ^ (7 * (k + 1)) := Nat.mul_le_mul_right _ hgt
        rw [Nat.one_mul] at this
        exact (Nat.pow_lt_pow_iff_right (by omega : 1 < 2)).mp (Nat.lt_of_le_of_lt this h1)
      have h3 : acc + (v % 128) * 2 ^ (7 * k) < 2 ^ (7 * (k + 1)) := by
        have : (v % 128 + 1) * 2 ^ (7 * k) ≤ 128 * 2 ^ (7 * k) := Nat.mul_le_mul_right _ (by omega)
        rw [Nat.add_mul] at this
        rw [Nat.mul_add 7 k 1, Nat.pow_add, Nat.mul_comm (2 ^ (7 * k))]
        omega
      rw [ih (v / 128) (by omega) _ _ h1 h2 h3, hq]
      congr 2; omega
    · have h0 : v / 128 = 0 := by omega
      simp only [hgt, dite_false, List.cons_append, List.nil_append, readVByteAux]
      have hb : (UInt8.ofNat (v % 128)).toNat = v % 128 := by
        rw [UInt8.toNat_ofNat']; omega
      have h127 : (v % 128) &&& 127 = v % 128 := by
        rw [show 127 = 2 ^ 7 - 1 by rfl, Nat.and_two_pow_sub_one_eq_mod]; omega
      have h128 : (v % 128) &&& 128 = 0 := by
        apply Nat.eq_of_testBit_eq
        intro i
        rw [Nat.zero_testBit, Nat.testBit_and, show 128 = 2 ^ 7 by rfl, Nat.testBit_two_pow]
        by_cases hi : 7 = i
        · subst hi; rw [Nat.testBit_lt_two_pow (by omega)]; simp
        · simp [hi]
      rw [if_neg (by omega), hb, h127, hor _ rfl, if_pos h128]
      have : v % 128 = v := by omega
      rw [this]

/-- Read `n` values. -/
def readVBytes : Nat → List UInt8 → Res (List Nat × List UInt8)
  | 0, bs => .ok ([], bs)
  | n + 1, bs =>
    match readVByte 64 bs with
    | .error e => .error e
    | .ok (v, bs) =>
      match readVBytes n bs with
      | .error e => .error e
      | .ok (vs, bs) => .ok (v :: vs, bs)

/-- **C05.** Any sequence of 64-bit values written with `write_vbyte` is read back, whatever follows, and exactly
the written bytes are consumed. -/
theorem vbyte_roundtrip (vs : List Nat) (h : ∀ v ∈ vs, v < 2 ^ 64) (rest : List UInt8) :
    readVBytes vs.length (vs.flatMap writeVByte ++ rest) = .ok (vs, rest) := by
  induction vs with
  | nil => rfl
  | cons v vs ih =>
    simp only [List.length_cons, List.flatMap_cons, List.append_assoc, readVBytes, readVByte]
    rw [readVByteAux_spec v 0 0 _ (by simpa using h v (by simp)) (by omega) (by simp)]
    simp only []
    rw [ih (fun x hx => h x (by simp [hx]))]
    simp

example : writeVByte 300 = [0xAC, 0x02] := by
  rw [writeVByte, writeVByte]; decide

/-- **C05.** The number of bytes is the number of 7-bit groups. -/
theorem vbyte_length (v : Nat) (k : Nat) : (writeVByte v).length ≤ k ↔ 1 ≤ k ∧ v < 128 ^ k := by
  induction v using Nat.strongRecOn generalizing k with
  | ind v ih =>
    rw [writeVByte]
    by_cases hgt : v / 128 > 0
    · simp only [hgt, dite_true, List.length_cons]
      have hl : 1 ≤ (writeVByte (v / 128)).length := by
        rw [writeVByte]; split <;> simp
      cases k with
      | zero => simp
      | succ k =>
        have := ih (v / 128) (by omega) k
        rw [Nat.add_le_add_iff_right, this, Nat.pow_succ]
        constructor
        · rintro ⟨h1, h2⟩
          exact ⟨by omega, (Nat.div_lt_iff_lt_mul (by omega)).mp h2⟩
        · rintro ⟨h1, h2⟩
          refine ⟨?_, (Nat.div_lt_iff_lt_mul (by omega)).mpr h2⟩
          rcases Nat.eq_zero_or_pos k with rfl | hk
          · simp at h2; omega
          · exact hk
    · simp only [hgt, dite_false, List.length_singleton]
      constructor
      · intro h
        refine ⟨h, Nat.lt_of_lt_of_le (by omega : v < 128 ^ 1) (Nat.pow_le_pow_right (by omega) h)⟩
      · exact fun h => h.1

/-- **C06.** For each universal coder: any sequence of values within their ranges is decoded from the bytes of the
closed stream, and the decoder is at `eof` exactly after the last value (and not before it). -/
theorem coders_roundtrip (n : CoderName) (ts : List Token) (h : ∀ t ∈ ts, t.1.Has t.2) (k : Nat) :
    ∃ rest, n.coder.decAll ((ts.take k).map (·.1)) (bitsOf (BitO.toBytes (n.coder.encAll ts)))
      = .ok ((ts.take k).map (·.2), rest) ∧ (rest.isEmpty = true ↔ ts.length ≤ k) := by
  rw [bitsOf_toBytes]
  refine ⟨n.coder.encAll (ts.drop k), ?_, ?_⟩
  · have e : n.coder.encAll ts = n.coder.encAll (ts.take k) ++ n.coder.encAll (ts.drop k) := by
      simp only [UCoder.encAll, ← List.flatMap_append, List.take_append_drop]
    rw [e]
    exact n.lawful.decAll _ (fun t ht => h t (List.mem_of_mem_take ht)) _
  · rw [List.isEmpty_iff, n.lawful.encAll_eq_nil _ (fun t ht => h t (List.mem_of_mem_drop ht))]
    simp

example : ∀ t ∈ [((.range 3 200, 77) : Token), (.literal, 255), (.bit, 1), (.range 0 0, 0)], t.1.Has t.2 := by decide
example : asciiCoder.encAll [(.range 0 100, 42)] = writeInt 52 8 ++ writeInt 50 8 ++ writeInt 58 8 := by
  rw [UCoder.encAll]; simp only [asciiCoder, List.flatMap_cons, List.flatMap_nil]; rw [decDigits, decDigits]; decide

end Tdc
