import Verif.Lemmas.IntCodes

/-!
# Properties C01 – C04: bit streams and integer codes
-/

namespace Tdc

/-- The reader's view of an arbitrary byte string (also one no `BitOStream` wrote) is a fixed bit list
`bitsOf`: `read_bit` pops it, `eof` is emptiness. All decoders of the model therefore work on bit lists. -/
theorem reader_is_bit_list (bytes : List UInt8) (n : Nat) :
    (BitI.readBits n (BitI.open bytes)).1
        = (bitsOf bytes).take n ++ List.replicate (n - (bitsOf bytes).length) false ∧
    ((BitI.readBits n (BitI.open bytes)).2.eof = true ↔ (bitsOf bytes).length ≤ n) := by
  have h := BitI.open_spec bytes
  rw [← bitsOf_eq_payload] at h
  generalize BitI.open bytes = s at h
  generalize bitsOf bytes = bs at h
  obtain ⟨hw, hr⟩ := h
  induction n generalizing s bs with
  | zero =>
    have := (BitI.readBit_spec s hw).2.2
    simp only [BitI.readBits, this, hr]
    simp
  | succ n ih =>
    obtain ⟨h1, h2, h3⟩ := BitI.readBit_spec s hw
    rw [hr] at h2 h3
    cases bs with
    | nil =>
      simp only [rdBit, Prod.mk.injEq] at h2
      have := ih _ [] h1 h2.2
      simp only [BitI.readBits, h2.1, this.1, this.2]
      simp [List.replicate_succ]
    | cons b bs =>
      simp only [rdBit, Prod.mk.injEq] at h2
      have := ih _ bs h1 h2.2
      simp only [BitI.readBits, h2.1, this.1, this.2]
      simp

/-- **C01.** Write any bits, close the stream, open a reader on the bytes: `n` calls of `read_bit` return
the first `n` written bits, padded with zeros after the end, and `eof()` is true afterwards iff all
written bits have been read. -/
theorem bitstream_roundtrip (bs : List Bool) (n : Nat) :
    (BitI.readBits n (BitI.open (BitO.toBytes bs))).1
        = bs.take n ++ List.replicate (n - bs.length) false ∧
    ((BitI.readBits n (BitI.open (BitO.toBytes bs))).2.eof = true ↔ bs.length ≤ n) := by
  have := reader_is_bit_list (BitO.toBytes bs) n
  rwa [bitsOf_toBytes] at this

/-- Non-trivial instance: 14 bits (two bytes and a separate trailer byte). -/
example : BitO.toBytes [true,false,true,true,false,false,true,false, true,true,true,true,true,true]
    = [0xB2, 0xFC, 6] := by decide
example : bitsOf [0xB2, 0xFC, 6]
    = [true,false,true,true,false,false,true,false, true,true,true,true,true,true] := by decide

/-- **C02.** The closed stream has exactly ⌈(n+3)/8⌉ bytes. -/
theorem bitstream_size (bs : List Bool) : (BitO.toBytes bs).length = (bs.length + 3 + 7) / 8 := by
  have h := BitO.repr_run bs
  unfold BitO.toBytes
  generalize bs.foldl BitO.writeBit BitO.init = s at h
  have hl : bs.length = 8 * s.out.length + (7 - s.cursor) := by
    rw [h.bits_eq]
    have : (s.out.flatMap byteBits).length = 8 * s.out.length := by
      rw [List.length_flatMap]
      simp [byteBits_length, List.map_const', List.sum_replicate_nat, Nat.mul_comm]
    rw [List.length_append, this, List.length_take, byteBits_length]
    omega
  have hc := h.cursor_le
  rcases BitO.finish_out h with ⟨h2, e⟩ | ⟨h2, e⟩ <;> rw [e] <;> simp <;> omega

/-! ## C03 -/

/-- The kinds of values that can be written to a bit stream. -/
inductive BitKind where
  | int (bits : Nat) | unary | ternary | gamma | delta | cint (b : Nat)
deriving DecidableEq, Repr

/-- The value is representable: it fits `size_t`, and for `write_int` the requested width. -/
def BitKind.Valid : BitKind → Nat → Prop
  | .int bits, v => bits ≤ 64 ∧ v < 2 ^ bits
  | .cint b, v => 0 < b ∧ b < 64 ∧ v < 2 ^ 64
  | _, v => v < 2 ^ 64

/-- The `write_*` call. -/
def BitKind.write : BitKind → Nat → List Bool
  | .int bits, v => writeInt v bits
  | .unary, v => writeUnary v
  | .ternary, v => writeTernary v
  | .gamma, v => writeGamma v
  | .delta, v => writeDelta v
  | .cint b, v => writeCInt v b

/-- The `read_*` call (value type `size_t`). -/
def BitKind.read : BitKind → List Bool → Res (Nat × List Bool)
  | .int bits, bs => .ok (rdInt 64 bits bs)
  | .unary, bs => rdUnary bs
  | .ternary, bs => rdTernary 64 bs
  | .gamma, bs => rdGamma 64 bs
  | .delta, bs => rdDelta 64 bs
  | .cint b, bs => rdCInt b bs

/-- Reads a sequence of values. -/
def readKinds : List BitKind → List Bool → Res (List Nat × List Bool)
  | [], bs => .ok ([], bs)
  | k :: ks, bs =>
    match k.read bs with
    | .error e => .error e
    | .ok (v, bs) =>
      match readKinds ks bs with
      | .error e => .error e
      | .ok (vs, bs) => .ok (v :: vs, bs)

theorem BitKind.read_write (k : BitKind) (v : Nat) (h : k.Valid v) (r : List Bool) :
    k.read (k.write v ++ r) = .ok (v, r) := by
  cases k with
  | int bits =>
    have : v < 2 ^ 64 := Nat.lt_of_lt_of_le h.2 (Nat.pow_le_pow_right (by omega) h.1)
    simp [read, write, rdInt_writeInt 64 v bits r h.2 this]
  | unary => exact rdUnary_writeUnary v r
  | ternary => exact rdTernary_writeTernary 64 v r h h
  | gamma => exact rdGamma_writeGamma 64 v r h h
  | delta => exact rdDelta_writeDelta 64 v r h h
  | cint b => exact rdCInt_writeCInt v b r h.1 h.2.1 h.2.2

/-- **C03.** Any mixture of integer codes written to one stream is read back from the bytes of that stream,
and nothing is left over (the reader is at `eof` exactly after the last value). -/
theorem intcodes_roundtrip (ops : List (BitKind × Nat)) (h : ∀ o ∈ ops, o.1.Valid o.2) :
    readKinds (ops.map (·.1)) (bitsOf (BitO.toBytes (ops.flatMap fun o => o.1.write o.2)))
      = .ok (ops.map (·.2), []) := by
  rw [bitsOf_toBytes]
  suffices ∀ r, readKinds (ops.map (·.1)) ((ops.flatMap fun o => o.1.write o.2) ++ r)
      = .ok (ops.map (·.2), r) by simpa using this []
  intro r
  induction ops with
  | nil => rfl
  | cons o ops ih =>
    simp only [List.map_cons, List.flatMap_cons, List.append_assoc, readKinds]
    rw [BitKind.read_write _ _ (h o (by simp))]
    simp only []
    rw [ih (fun o ho => h o (by simp [ho]))]

example : ∀ o ∈ [(BitKind.int 5, 17), (.gamma, 0), (.ternary, 1000), (.cint 7, 300), (.delta, 5), (.unary, 3)],
    o.1.Valid o.2 := by simp [BitKind.Valid]
example : BitKind.gamma.write 5 = [false, false, false, true, true, false, true] := by decide

/-! ## C04 -/

/-- **C04.** `bits_for n` is the least positive number of bits that holds `n`. -/
theorem bitsFor_exact (n b : Nat) (h : n < 2 ^ 64) :
    bitsFor n ≤ b ↔ 1 ≤ b ∧ n < 2 ^ b := by
  constructor
  · intro hb
    exact ⟨Nat.le_trans (bitsFor_pos n h) hb,
      Nat.lt_of_lt_of_le (lt_two_pow_bitsFor n h) (Nat.pow_le_pow_right (by omega) hb)⟩
  · rintro ⟨h1, hb⟩
    by_cases hn : n = 0
    · rw [bitsFor_eq n h, if_pos hn]; exact h1
    · have := Nat.lt_of_le_of_lt (two_pow_le_of_bitsFor n hn h) hb
      have := (Nat.pow_lt_pow_iff_right (by omega : 1 < 2)).mp this
      omega

/-- **C04.** `idiv_ceil a b` is the least `q` with `a ≤ q * b`. -/
theorem idivCeil_exact (a b q : Nat) (hb : 0 < b) : idivCeil a b ≤ q ↔ a ≤ q * b := by
  unfold idivCeil
  have hdm := Nat.div_add_mod a b
  have hlt := Nat.mod_lt a hb
  constructor
  · intro h
    have h1 := Nat.mul_le_mul_right b h
    rw [Nat.add_mul, Nat.mul_comm (a / b)] at h1
    split at h1 <;> omega
  · intro h
    by_cases h0 : a % b > 0
    · rw [if_pos h0]
      have : a / b < q := by
        apply Nat.lt_of_mul_lt_mul_left (a := b)
        rw [Nat.mul_comm b q]; omega
      omega
    · rw [if_neg h0, Nat.add_zero]
      apply Nat.le_of_mul_le_mul_left (c := b) _ hb
      rw [Nat.mul_comm b q]; omega

/-- **C04.** `bytes_for n` is the least positive number of bytes that holds `n`. -/
theorem bytesFor_exact (n k : Nat) (h : n < 2 ^ 64) : bytesFor n ≤ k ↔ 1 ≤ k ∧ n < 2 ^ (k * 8) := by
  unfold bytesFor
  rw [idivCeil_exact _ _ _ (by omega), bitsFor_exact n _ h]
  omega

example : bitsFor 255 = 8 ∧ bitsFor 256 = 9 ∧ bitsFor 0 = 1 ∧ bytesFor 65536 = 3 := by decide

end Tdc
