import Verif.Lemmas.EspGrammar
import Verif.Lemmas.IntCodes
import Verif.Props.BitIO

/-!
# Properties C55 and C56: the ESP compressor

`iter` is the order in which the hash map of a round is traversed: any order, as long as every entry is visited exactly once.
The bound on the length is that of `__builtin_ctz` in `label`, which sees 32 bits.
-/

namespace Tdc
namespace Esp

open Slp

/-! ## The plain coder -/

theorem plainRules_length (w : Nat) (l : List (Nat × Nat)) : (plainRules w l).length = 2 * w * l.length := by
  induction l with
  | nil => simp [plainRules]
  | cons p l ih =>
    obtain ⟨a, b⟩ := p
    simp only [plainRules, List.length_append, writeInt_length, ih, List.length_cons, Nat.mul_add]
    omega

theorem plainLoop_ok {w : Nat} (hw : 1 ≤ w) (hw64 : w ≤ 64) : ∀ (l : List (Nat × Nat)) (fuel : Nat), l.length ≤ fuel → (∀ p ∈ l, p.1 < 2 ^ w ∧ p.2 < 2 ^ w) →
    plainLoop w fuel (plainRules w l) = .ok l
  | [], fuel, _, _ => by cases fuel <;> simp [plainLoop, plainRules]
  | (a, b) :: l, 0, hf, _ => by simp at hf
  | (a, b) :: l, fuel + 1, hf, h => by
    obtain ⟨ha, hb⟩ := h (a, b) (by simp)
    have hle : (2 : Nat) ^ w ≤ 2 ^ 64 := Nat.pow_le_pow_right (by omega) hw64
    have ih := plainLoop_ok hw hw64 l fuel (by simpa using hf) (fun p hp => h p (by simp [hp]))
    rw [plainLoop, if_neg (by rw [plainRules_length, List.length_cons]; have : 2 * w * (l.length + 1) = 2 * w * l.length + 2 * w := by rw [Nat.mul_add]; omega
                              omega)]
    simp only [plainRules, List.append_assoc]
    rw [rdInt_writeInt 64 a w _ ha (by omega)]
    simp only
    rw [rdInt_writeInt 64 b w _ hb (by omega)]
    simp only [ih, Except.bind]

/-- What the plain coder writes, it reads: for the empty grammar, and for every grammar whose symbols are in range. -/
theorem plain_roundtrip (s : SLP) (h0 : s.empty = true → s.rules = [] ∧ s.root = 0) (hr : s.root < 256 + s.rules.length)
    (hs : ∀ p ∈ s.rules, p.1 < 256 + s.rules.length ∧ p.2 < 256 + s.rules.length) (hn : s.rules.length < 2 ^ 62) :
    plainDec (plainEnc s) = .ok s := by
  obtain ⟨rules, root, empty⟩ := s
  simp only at *
  cases empty with
  | true =>
    obtain ⟨rfl, rfl⟩ := h0 rfl
    decide
  | false =>
    have hlt : rules.length + 256 - 1 < 2 ^ 63 := by omega
    have hw1 := (bitsFor_exact (rules.length + 256 - 1) 63 (by omega)).2 ⟨by omega, hlt⟩
    have hw0 := ((bitsFor_exact (rules.length + 256 - 1) _ (by omega)).1 (Nat.le_refl _))
    generalize hw : bitsFor (rules.length + 256 - 1) = w at *
    have hle : (2 : Nat) ^ w ≤ 2 ^ 63 := Nat.pow_le_pow_right (by omega) hw1
    unfold plainDec plainEnc
    simp only [hw, Bool.false_eq_true, if_false, List.append_assoc]
    rw [rdInt_writeInt 64 w 6 _ (by omega) (by omega)]
    simp only
    rw [rdInt_writeInt 64 root w _ (by omega) (by omega)]
    simp only
    rw [plainLoop_ok hw0.1 (by omega) rules _ (by
      rw [plainRules_length]
      have : 1 * rules.length ≤ 2 * w * rules.length := Nat.mul_le_mul_right _ (by omega)
      omega) (fun p hp => by have := hs p hp; omega)]
    have : (w == 0) = false := by simp; omega
    simp only [Except.bind, this]

/-! ## C55 -/

/-- C55: compressing with ESP and the plain coder gives a file from which decompression gives the text back, whatever the text and
whatever the order in which the hash maps are traversed. -/
theorem esp_lossless {iter : List ((Nat × Nat) × Nat) → List ((Nat × Nat) × Nat)} (hit : ∀ l, (iter l).Perm l) (text : List UInt8) (hn : text.length ≤ 2 ^ 32) :
    ∃ bytes, compress iter text = .ok bytes ∧ decompress bytes = .ok text := by
  obtain ⟨s, h1, h2, _, h4, h5⟩ := generate_ok hit text hn
  refine ⟨BitO.toBytes (plainEnc s), by simp only [compress, h1, Except.bind], ?_⟩
  unfold decompress
  rw [bitsOf_toBytes]
  by_cases ht : text = []
  · have := h4 ht
    subst this; subst ht
    rw [plain_roundtrip _ (by simp) (by simp) (by simp) (by simp)]
    rfl
  · obtain ⟨g1, g2, g3, k, _, g5⟩ := h5 ht
    rw [plain_roundtrip s (by simp [g1]) g3 (by
      rintro ⟨l, r⟩ hp
      obtain ⟨i, hi⟩ := List.getElem?_of_mem hp
      have := h2 i l r hi
      have := (List.getElem?_eq_some_iff.1 hi).1
      simp only; omega) (by omega)]
    simp only [Except.bind, SLP.derive, g1, Bool.false_eq_true, if_false]
    exact deriveRec_of (der_ordered h2 g5 g3)

/-! ## C56 -/

/-- C56: the grammar ESP computes for a non-empty text of `n` bytes has fewer than `n` rules; no two have the same right-hand side; every
rule uses only bytes and earlier rules; the root stands for the text, with no more than `2 log₂ n` rules nested in each other, so that
deriving the text recurses no deeper than that. -/
theorem esp_grammar {iter : List ((Nat × Nat) × Nat) → List ((Nat × Nat) × Nat)} (hit : ∀ l, (iter l).Perm l) (text : List UInt8) (h0 : text ≠ [])
    (hn : text.length ≤ 2 ^ 32) :
    ∃ s, generate iter text = .ok s ∧ s.empty = false ∧ s.rules.length < text.length ∧ s.rules.Nodup ∧ Ordered s.rules ∧
      DerivesIn s.rules (2 * Nat.log2 text.length) s.root text ∧ deriveRec s.rules (2 * Nat.log2 text.length + 1) s.root = .ok text := by
  obtain ⟨s, h1, h2, h3, _, h5⟩ := generate_ok hit text hn
  obtain ⟨g1, g2, g3, k, g4, g5⟩ := h5 h0
  have hne : text.length ≠ 0 := by simpa using h0
  have hk : k ≤ Nat.log2 text.length := (Nat.le_log2 hne).2 g4
  have hd := der_mono' g5 (show 2 * k ≤ 2 * Nat.log2 text.length by omega)
  exact ⟨s, h1, g1, by omega, h3, h2, hd, deriveRec_of hd⟩

/-- C56, the size of the file: with `w` the bits of the largest symbol, six bits and at most `(2 n - 1) w` bits. -/
theorem esp_size {iter : List ((Nat × Nat) × Nat) → List ((Nat × Nat) × Nat)} (hit : ∀ l, (iter l).Perm l) (text : List UInt8) (h0 : text ≠ [])
    (hn : text.length ≤ 2 ^ 32) :
    ∃ s, generate iter text = .ok s ∧ compress iter text = .ok (BitO.toBytes (plainEnc s)) ∧
      (plainEnc s).length = 6 + (2 * s.rules.length + 1) * bitsFor (s.rules.length + 255) ∧ s.rules.length < text.length := by
  obtain ⟨s, h1, g1, g2, _⟩ := esp_grammar hit text h0 hn
  refine ⟨s, h1, by simp only [compress, h1, Except.bind], ?_, g2⟩
  simp only [plainEnc, g1, Bool.false_eq_true, if_false, List.length_append, writeInt_length, plainRules_length,
    show s.rules.length + 256 - 1 = s.rules.length + 255 by omega]
  rw [Nat.add_mul, Nat.mul_right_comm]
  omega

/-! Witnesses: a text with repetitions and without, and the traversal order reversed. -/

example : ∀ l : List ((Nat × Nat) × Nat), l.reverse.Perm l := fun l => l.reverse_perm
example : (generate List.reverse [97, 98, 97, 98, 97, 98, 99, 99, 99, 99]) =
    .ok ⟨[(97, 98), (256, 97), (98, 97), (258, 98), (99, 99), (257, 259), (260, 260), (261, 262)], 263, false⟩ := by decide
example : Nat.log2 10 = 3 := by decide

end Esp
end Tdc
