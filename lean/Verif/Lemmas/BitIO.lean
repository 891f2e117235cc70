import Verif.Model.BitIO

/-! Helper lemmas for the bit streams. -/

namespace Tdc

theorem byteBits_length (b : UInt8) : (byteBits b).length = 8 := rfl

/-- `next |= 1 << cursor` sets exactly bit `7 - cursor` of the (MSB first) bit list. -/
theorem byteBits_set (n : UInt8) (c : Nat) (hc : c < 8) :
    byteBits (n ||| (1 <<< UInt8.ofNat c)) = (byteBits n).set (7 - c) true := by
  have key : ∀ c : Fin 8, ∀ n : Fin 256,
      byteBits (UInt8.ofNat n.val ||| (1 <<< UInt8.ofNat c.val))
        = (byteBits (UInt8.ofNat n.val)).set (7 - c.val) true := by decide +kernel
  have := key ⟨c, hc⟩ ⟨n.toNat, n.toNat_lt⟩
  simpa using this

/-- Or-ing a number into the unused (zero) low bits. -/
theorem byteBits_or_low (n : UInt8) (c : Nat) (hc : c < 8) (h2 : 2 ≤ c)
    (hz : (byteBits n).drop (7 - c) = List.replicate (c + 1) false) :
    (byteBits (n ||| UInt8.ofNat (7 - c))).take (7 - c) = (byteBits n).take (7 - c) ∧
    (n ||| UInt8.ofNat (7 - c)).toNat &&& 7 = 7 - c := by
  have key : ∀ c : Fin 8, ∀ n : Fin 256, 2 ≤ c.val →
      (byteBits (UInt8.ofNat n.val)).drop (7 - c.val) = List.replicate (c.val + 1) false →
      (byteBits (UInt8.ofNat n.val ||| UInt8.ofNat (7 - c.val))).take (7 - c.val)
        = (byteBits (UInt8.ofNat n.val)).take (7 - c.val) ∧
      (UInt8.ofNat n.val ||| UInt8.ofNat (7 - c.val)).toNat &&& 7 = 7 - c.val := by decide +kernel
  have := key ⟨c, hc⟩ ⟨n.toNat, n.toNat_lt⟩ h2
  simp only [UInt8.ofNat_toNat] at this
  exact this hz

namespace BitO

/-- `s` is the state after writing `bits`. -/
structure Repr (s : BitO) (bits : List Bool) : Prop where
  cursor_le : s.cursor ≤ 7
  bits_eq : bits = s.out.flatMap byteBits ++ (byteBits s.next).take (7 - s.cursor)
  rest_zero : (byteBits s.next).drop (7 - s.cursor) = List.replicate (s.cursor + 1) false
  dirty_iff : s.dirty = decide (s.cursor ≠ 7)

theorem repr_init : Repr init [] := by
  constructor <;> simp [init, reset, byteBits, List.replicate]

theorem set_take (l : List Bool) (c : Nat) (hc : c ≤ 7) (hl : l.length = 8) (b : Bool)
    (hz : l.drop (7 - c) = List.replicate (c + 1) false) :
    (if b then l.set (7 - c) true else l).take (7 - c + 1) = l.take (7 - c) ++ [b] := by
  have h0 : l[7 - c]'(by omega) = false := by
    have h := congrArg (fun l => l[0]?) hz
    simp at h
    rw [List.getElem?_eq_getElem (by omega)] at h
    simpa using h
  cases b
  · simp only [Bool.false_eq_true, if_false]
    rw [List.take_succ_eq_append_getElem (by omega), h0]
  · simp only [if_true]
    rw [List.take_succ_eq_append_getElem (by simp; omega), List.take_set_of_le (by omega)]
    simp

theorem set_drop (l : List Bool) (c : Nat) (b : Bool)
    (hz : l.drop (7 - c) = List.replicate (c + 1) false) :
    (if b then l.set (7 - c) true else l).drop (7 - c + 1) = List.replicate c false := by
  have : l.drop (7 - c + 1) = List.replicate c false := by
    have h := congrArg (List.drop 1) hz
    rw [List.drop_drop] at h
    rw [h]; simp
  cases b
  · simpa using this
  · simp only [if_true]
    rw [List.drop_set_of_lt (by omega), this]

theorem repr_writeBit {s : BitO} {bits : List Bool} (h : Repr s bits) (b : Bool) :
    Repr (writeBit s b) (bits ++ [b]) := by
  obtain ⟨hc, hb, hz, hd⟩ := h
  have hnext : byteBits (if b then s.next ||| (1 <<< UInt8.ofNat s.cursor) else s.next)
      = if b then (byteBits s.next).set (7 - s.cursor) true else byteBits s.next := by
    cases b
    · simp
    · simp [byteBits_set s.next s.cursor (by omega)]
  have ht := set_take (byteBits s.next) s.cursor hc (byteBits_length _) b hz
  have hdr := set_drop (byteBits s.next) s.cursor b hz
  rw [← hnext] at ht hdr
  have e : writeBit s b =
      if s.cursor = 0 then
        ⟨s.out ++ [if b then s.next ||| (1 <<< UInt8.ofNat s.cursor) else s.next], false, 0, 7⟩
      else ⟨s.out, true, if b then s.next ||| (1 <<< UInt8.ofNat s.cursor) else s.next, s.cursor - 1⟩ := by
    cases b <;> simp only [writeBit] <;> by_cases h0 : s.cursor = 0 <;> simp [h0, writeNext, reset]
  rw [e]
  by_cases h0 : s.cursor = 0
  · rw [if_pos h0]
    rw [h0] at ht
    constructor
    · simp
    · simp only [List.flatMap_append, List.flatMap_cons, List.flatMap_nil, List.append_nil, Nat.sub_self,
        List.take_zero]
      rw [hb, h0, List.append_assoc, ← ht]
      simp [byteBits]
    · simp [byteBits, List.replicate]
    · simp
  · rw [if_neg h0]
    have e7 : 7 - (s.cursor - 1) = 7 - s.cursor + 1 := by omega
    constructor
    · show s.cursor - 1 ≤ 7
      omega
    · show _ = s.out.flatMap byteBits ++ List.take (7 - (s.cursor - 1)) _
      rw [e7, ht, hb, List.append_assoc]
    · show List.drop (7 - (s.cursor - 1)) _ = List.replicate (s.cursor - 1 + 1) false
      rw [e7, hdr]
      congr 1; omega
    · simp; omega

theorem repr_foldl (bs : List Bool) {s : BitO} {bits : List Bool} (h : Repr s bits) :
    Repr (bs.foldl writeBit s) (bits ++ bs) := by
  induction bs generalizing s bits with
  | nil => simpa
  | cons b bs ih => simpa using ih (repr_writeBit h b)

theorem repr_run (bs : List Bool) : Repr (bs.foldl writeBit init) bs := by
  simpa using repr_foldl bs repr_init

/-- Shape of a closed stream. -/
theorem finish_out {s : BitO} {bits : List Bool} (h : Repr s bits) :
    (2 ≤ s.cursor ∧ (finish s).out = s.out ++ [s.next ||| UInt8.ofNat (7 - s.cursor)]) ∨
    (s.cursor < 2 ∧ (finish s).out = s.out ++ [s.next, UInt8.ofNat (7 - s.cursor)]) := by
  by_cases h2 : 2 ≤ s.cursor
  · left; exact ⟨h2, by simp [finish, h2, writeNext, reset]⟩
  · right
    refine ⟨by omega, ?_⟩
    have : s.dirty = true := by rw [h.dirty_iff]; simp; omega
    simp [finish, h2, writeNext, reset, this]

end BitO

/-! ## Reader -/

/-- Meaning of a byte string as a bit stream with the trailer convention. -/
def payload : List UInt8 → List Bool
  | [] => []
  | [a] => (byteBits a).take (a.toNat &&& 7)
  | [a, b] => if b.toNat &&& 7 ≥ 6 then (byteBits a).take (b.toNat &&& 7)
              else byteBits a ++ payload [b]
  | a :: b :: c :: rest => byteBits a ++ payload (b :: c :: rest)

namespace BitI

/-- Bits still to be delivered. -/
def rem (s : BitI) : List Bool :=
  if s.isFinal then ((byteBits s.current).take s.finalBits).drop (7 - s.cursor)
  else (byteBits s.current).drop (7 - s.cursor) ++ payload (s.next :: s.stream)

structure Wf (s : BitI) : Prop where
  cursor_le : s.cursor ≤ 7
  final_le : s.isFinal = true → s.finalBits ≤ 7

theorem and7_le (n : Nat) : n &&& 7 ≤ 7 := Nat.and_le_right

theorem readNext_spec (s : BitI) (hf : s.isFinal = false) :
    Wf (readNext s) ∧ rem (readNext s) = payload (s.next :: s.stream) := by
  obtain ⟨stream, current, next, isFinal, finalBits, cursor⟩ := s
  simp only at hf
  subst hf
  match stream with
  | [] =>
    refine ⟨⟨by simp [readNext], by simp [readNext, and7_le]⟩, ?_⟩
    simp [readNext, rem, payload]
  | [c] =>
    by_cases h6 : c.toNat &&& 7 ≥ 6
    · refine ⟨⟨by simp [readNext, h6], by simp [readNext, h6, and7_le]⟩, ?_⟩
      simp [readNext, rem, payload, h6]
    · refine ⟨⟨by simp [readNext, h6], by simp [readNext, h6]⟩, ?_⟩
      simp [readNext, rem, payload, h6]
  | c :: d :: rest =>
    refine ⟨⟨by simp [readNext], by simp [readNext]⟩, ?_⟩
    simp [readNext, rem, payload]

theorem open_spec (bytes : List UInt8) :
    Wf (BitI.open bytes) ∧ rem (BitI.open bytes) = payload bytes := by
  match bytes with
  | [] => exact ⟨⟨by simp [BitI.open], by simp [BitI.open]⟩, by simp [BitI.open, rem, payload]⟩
  | c :: rest => exact readNext_spec _ rfl

theorem testBit_eq_getElem (b : UInt8) (c : Nat) (hc : c ≤ 7) :
    b.toNat.testBit c = (byteBits b)[7 - c]'(by simp [byteBits_length]; omega) := by
  have : c = 0 ∨ c = 1 ∨ c = 2 ∨ c = 3 ∨ c = 4 ∨ c = 5 ∨ c = 6 ∨ c = 7 := by omega
  rcases this with h | h | h | h | h | h | h | h <;> subst h <;> rfl

/-- One `read_bit` pops the head of the remaining bits; `eof` is emptiness. -/
theorem readBit_spec (s : BitI) (h : Wf s) :
    Wf (readBit s).2 ∧ ((readBit s).1, rem (readBit s).2) = rdBit (rem s) ∧
    (s.eof = true ↔ rem s = []) := by
  obtain ⟨hc, hfin⟩ := h
  cases hF : s.isFinal with
  | true =>
    have hfb := hfin hF
    by_cases he : s.cursor + s.finalBits ≤ 7
    · have heof : s.eof = true := by simp [eof, hF]; omega
      have hrem : rem s = [] := by
        simp only [rem, hF, if_true]
        apply List.drop_eq_nil_of_le
        simp [byteBits_length]; omega
      refine ⟨?_, ?_, ?_⟩
      · simp [readBit, heof]; exact ⟨hc, hfin⟩
      · simp [readBit, heof, hrem, rdBit]
      · simp [heof, hrem]
    · have heof : s.eof = false := by simp [eof, hF]; omega
      have hc0 : s.cursor ≠ 0 := by omega
      have e : (readBit s) = (s.current.toNat.testBit s.cursor, { s with cursor := s.cursor - 1 }) := by
        simp [readBit, heof, hc0]
      have hlen : ((byteBits s.current).take s.finalBits).length = s.finalBits := by
        simp [byteBits_length]; omega
      have hrem : rem s = s.current.toNat.testBit s.cursor ::
          ((byteBits s.current).take s.finalBits).drop (7 - s.cursor + 1) := by
        simp only [rem, hF, if_true]
        rw [List.drop_eq_getElem_cons (by omega), List.getElem_take, testBit_eq_getElem _ _ hc]
      refine ⟨?_, ?_, ?_⟩
      · rw [e]; exact ⟨by simp; omega, hfin⟩
      · rw [e, hrem]
        simp only [rdBit, rem, hF, if_true]
        congr 2; omega
      · simp [heof, hrem]
  | false =>
    have heof : s.eof = false := by simp [eof, hF]
    have hrem : rem s = s.current.toNat.testBit s.cursor ::
        ((byteBits s.current).drop (7 - s.cursor + 1) ++ payload (s.next :: s.stream)) := by
      simp only [rem, hF, Bool.false_eq_true, if_false]
      rw [List.drop_eq_getElem_cons (by simp [byteBits_length]; omega), testBit_eq_getElem _ _ hc,
        List.cons_append]
    by_cases hc0 : s.cursor = 0
    · have e : (readBit s) = (s.current.toNat.testBit s.cursor, readNext s) := by
        simp [readBit, heof, hc0]
      obtain ⟨h1, h2⟩ := readNext_spec s hF
      refine ⟨by rw [e]; exact h1, ?_, by simp [heof, hrem]⟩
      rw [e, hrem, h2]
      simp only [rdBit]
      rw [List.drop_eq_nil_of_le (by simp [byteBits_length]; omega)]
      simp
    · have e : (readBit s) = (s.current.toNat.testBit s.cursor, { s with cursor := s.cursor - 1 }) := by
        simp [readBit, heof, hc0]
      refine ⟨?_, ?_, by simp [heof, hrem]⟩
      · rw [e]; exact ⟨by simp; omega, by simp [hF]⟩
      · rw [e, hrem]
        simp only [rdBit, rem, hF, Bool.false_eq_true, if_false]
        congr 3; omega

theorem drainFuel_eq (n : Nat) (s : BitI) (h : Wf s) (hn : (rem s).length ≤ n) :
    drainFuel n s = rem s := by
  induction n generalizing s with
  | zero => simp only [drainFuel]; exact (List.length_eq_zero_iff.mp (by omega)).symm
  | succ n ih =>
    obtain ⟨h1, h2, h3⟩ := readBit_spec s h
    simp only [drainFuel]
    split
    · rename_i he; exact (h3.mp he).symm
    · rename_i he
      cases hr : rem s with
      | nil => exact absurd (h3.mpr hr) he
      | cons b bs =>
        rw [hr] at h2
        simp only [rdBit, Prod.mk.injEq] at h2
        rw [ih _ h1 (by rw [h2.2]; rw [hr] at hn; simp at hn; omega), h2.1, h2.2]

theorem payload_length (l : List UInt8) : (payload l).length ≤ 8 * l.length := by
  fun_induction payload l with
  | case1 => simp
  | case2 a => simp [byteBits_length]; omega
  | case3 a b h => simp [byteBits_length]; omega
  | case4 a b h ih => simp [byteBits_length] at *; omega
  | case5 a b c rest ih => simp [byteBits_length] at *; omega

end BitI

theorem bitsOf_eq_payload (bytes : List UInt8) : bitsOf bytes = payload bytes := by
  obtain ⟨h1, h2⟩ := BitI.open_spec bytes
  unfold bitsOf
  rw [BitI.drainFuel_eq _ _ h1 (by rw [h2]; exact BitI.payload_length bytes), h2]

theorem payload_append_one (l : List UInt8) (z : UInt8) (hz : z.toNat &&& 7 < 6) :
    payload (l ++ [z]) = l.flatMap byteBits ++ (byteBits z).take (z.toNat &&& 7) := by
  induction l with
  | nil => simp [payload]
  | cons a l ih =>
    match l with
    | [] => simp [payload]; omega
    | [b] => simpa [payload] using ih
    | b :: c :: r => simpa [payload] using ih

theorem payload_append_two (l : List UInt8) (y z : UInt8) (hz : z.toNat &&& 7 ≥ 6) :
    payload (l ++ [y, z]) = l.flatMap byteBits ++ (byteBits y).take (z.toNat &&& 7) := by
  induction l with
  | nil => simp [payload, hz]
  | cons a l ih =>
    match l with
    | [] => simp [payload, hz]
    | [b] => simpa [payload] using ih
    | b :: c :: r => simpa [payload] using ih

theorem bitsOf_toBytes (bs : List Bool) : bitsOf (BitO.toBytes bs) = bs := by
  have h := BitO.repr_run bs
  rw [bitsOf_eq_payload]
  unfold BitO.toBytes
  generalize bs.foldl BitO.writeBit BitO.init = s at h
  obtain ⟨hc, hb, hz, hd⟩ := id h
  rcases BitO.finish_out h with ⟨h2, e⟩ | ⟨h2, e⟩
  · obtain ⟨k1, k2⟩ := byteBits_or_low s.next s.cursor (by omega) h2 hz
    rw [e, payload_append_one _ _ (by omega), k2, k1, ← hb]
  · have h01 : s.cursor = 0 ∨ s.cursor = 1 := by omega
    have k : (UInt8.ofNat (7 - s.cursor)).toNat &&& 7 = 7 - s.cursor := by
      rcases h01 with h | h <;> rw [h] <;> rfl
    rw [e, payload_append_two _ _ _ (by omega), k, ← hb]

end Tdc
