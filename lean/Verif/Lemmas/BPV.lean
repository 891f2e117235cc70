import Verif.Model.BPV
import Mathlib.Tactic.ByContra
import Mathlib.Tactic.Ring

namespace Tdc
namespace BPV

theorem bitsLE_length : ∀ w v, (bitsLE w v).length = w
  | 0, _ => rfl
  | w + 1, v => by simp [bitsLE, bitsLE_length w]

theorem valLE_bitsLE : ∀ w v, valLE (bitsLE w v) = v % 2 ^ w
  | 0, v => by simp [bitsLE, valLE, Nat.mod_one]
  | w + 1, v => by
    have h : v % 2 ^ (w + 1) = v % 2 + 2 * (v / 2 % 2 ^ w) := by
      rw [Nat.pow_succ, Nat.mul_comm, Nat.mod_mul]
    have hb : ((v % 2 == 1 : Bool)).toNat = v % 2 := by
      rcases Nat.mod_two_eq_zero_or_one v with e | e <;> simp [e]
    rw [bitsLE, valLE, valLE_bitsLE w, h, hb]

theorem valLE_lt : ∀ bs, valLE bs < 2 ^ bs.length
  | [] => by simp [valLE]
  | b :: bs => by
    have := valLE_lt bs
    have hb : b.toNat ≤ 1 := Bool.toNat_le b
    simp only [valLE, List.length_cons, Nat.pow_succ]
    omega

theorem valLE_replicate_false : ∀ n, valLE (List.replicate n false) = 0
  | 0 => rfl
  | n + 1 => by simp [List.replicate_succ, valLE, valLE_replicate_false n]

theorem valLE_inj : ∀ (a b : List Bool), a.length = b.length → valLE a = valLE b → a = b
  | [], [], _, _ => rfl
  | [], _ :: _, h, _ => by simp at h
  | _ :: _, [], h, _ => by simp at h
  | x :: a, y :: b, h, e => by
    simp only [valLE] at e
    have hx : x.toNat ≤ 1 := Bool.toNat_le x
    have hy : y.toNat ≤ 1 := Bool.toNat_le y
    have h1 : valLE a = valLE b := by omega
    have h2 : x.toNat = y.toNat := by omega
    have h3 : x = y := by cases x <;> cases y <;> simp_all
    rw [h3, valLE_inj a b (by simpa using h) h1]

/-- The number in `w` bits at position `p`. -/
def valAt (mem : List Bool) (p w : Nat) : Nat := valLE ((mem.drop p).take w)

theorem valAt_lt (mem : List Bool) (p w : Nat) : valAt mem p w < 2 ^ w := by
  refine Nat.lt_of_lt_of_le (valLE_lt _) (Nat.pow_le_pow_right (by decide) ?_)
  simp only [List.length_take]
  exact Nat.min_le_left _ _

theorem rdBits_eq {mem : List Bool} {p w : Nat} (h : p + w ≤ mem.length) : rdBits mem p w = .ok (valAt mem p w) := if_pos h

theorem wrBits_spec {mem : List Bool} {p w : Nat} (v : Nat) (h : p + w ≤ mem.length) : ∃ m, wrBits mem p w v = .ok m ∧ m.length = mem.length ∧
    valAt m p w = v % 2 ^ w ∧ ∀ q u, q + u ≤ p ∨ p + w ≤ q → valAt m q u = valAt mem q u := by
  refine ⟨_, if_pos h, ?_, ?_, ?_⟩
  · simp only [List.length_append, List.length_take, bitsLE_length, List.length_drop]; omega
  · unfold valAt
    have h1 : (mem.take p).length = p := by simp; omega
    rw [List.append_assoc, List.drop_append_of_le_length (by omega), List.drop_of_length_le (by omega), List.nil_append,
      List.take_append_of_le_length (by rw [bitsLE_length]), List.take_of_length_le (by rw [bitsLE_length]), valLE_bitsLE]
  · intro q u hd
    unfold valAt
    congr 1
    apply List.ext_getElem?
    intro i
    rw [List.getElem?_take, List.getElem?_take]
    split
    · rename_i hi
      rw [List.getElem?_drop, List.getElem?_drop]
      have hl : (mem.take p).length = p := by simp; omega
      rcases hd with hd | hd
      · rw [List.append_assoc, List.getElem?_append_left (by omega), List.getElem?_take, if_pos (by omega)]
      · rw [List.getElem?_append_right (by simp only [List.length_append, bitsLE_length]; omega), List.getElem?_drop]
        congr 1
        simp only [List.length_append, bitsLE_length]
        omega
    · rfl

/-- Element `i` of the grid of width `w`. -/
def el (mem : List Bool) (w i : Nat) : Nat := valAt mem (i * w) w

theorem el_lt (mem : List Bool) (w i : Nat) : el mem w i < 2 ^ w := valAt_lt _ _ _

theorem grid_disj {w i j : Nat} (h : i ≠ j) : j * w + w ≤ i * w ∨ i * w + w ≤ j * w := by
  rcases Nat.lt_or_gt_of_ne h with h | h
  · right
    have := Nat.mul_le_mul_right w (show i + 1 ≤ j from h)
    rwa [Nat.succ_mul] at this
  · left
    have := Nat.mul_le_mul_right w (show j + 1 ≤ i from h)
    rwa [Nat.succ_mul] at this

theorem fit {w i n : Nat} (h : i < n) : i * w + w ≤ n * w := by
  have := Nat.mul_le_mul_right w (show i + 1 ≤ n from h)
  rwa [Nat.succ_mul] at this

theorem wrEl {mem : List Bool} {w i n : Nat} (v : Nat) (hi : i < n) (h : n * w ≤ mem.length) : ∃ m, wrBits mem (i * w) w v = .ok m ∧ m.length = mem.length ∧
    ∀ j, el m w j = if j = i then v % 2 ^ w else el mem w j := by
  obtain ⟨m, h1, h2, h3, h4⟩ := wrBits_spec v (Nat.le_trans (fit hi) h)
  refine ⟨m, h1, h2, fun j => ?_⟩
  by_cases e : j = i
  · rw [if_pos e, e]; exact h3
  · rw [if_neg e]; exact h4 _ _ (grid_disj (Ne.symm e))

theorem rdEl {mem : List Bool} {w i n : Nat} (hi : i < n) (h : n * w ≤ mem.length) : rdBits mem (i * w) w = .ok (el mem w i) :=
  rdBits_eq (Nat.le_trans (fit hi) h)

theorem fill_spec (w v N : Nat) : ∀ (n i : Nat) (mem : List Bool), i + n ≤ N → N * w ≤ mem.length → ∃ m, fill w v n i mem = .ok m ∧ m.length = mem.length ∧
    ∀ j, el m w j = if i ≤ j ∧ j < i + n then v % 2 ^ w else el mem w j
  | 0, i, mem, _, _ => ⟨mem, rfl, rfl, fun j => by rw [if_neg (by omega)]⟩
  | n + 1, i, mem, hi, hm => by
    obtain ⟨m1, e1, l1, s1⟩ := wrEl v (show i < N by omega) hm
    obtain ⟨m, e, l, s⟩ := fill_spec w v N n (i + 1) m1 (by omega) (by omega)
    refine ⟨m, by rw [fill, e1]; exact e, by omega, fun j => ?_⟩
    rw [s, s1]
    by_cases h1 : j = i
    · rw [if_neg (by omega), if_pos h1, if_pos (by omega)]
    · by_cases h2 : i + 1 ≤ j ∧ j < i + 1 + n
      · rw [if_pos h2, if_pos (by omega)]
      · rw [if_neg h2, if_neg h1, if_neg (by omega)]

theorem moveBack_spec (w N : Nat) : ∀ (k o q : Nat) (mem : List Bool), k ≤ o → o ≤ q → q ≤ N → N * w ≤ mem.length →
    ∃ m, moveBack w k o q mem = .ok m ∧ m.length = mem.length ∧ ∀ j, el m w j = if q - k ≤ j ∧ j < q then el mem w (j - (q - o)) else el mem w j
  | 0, o, q, mem, _, _, _, _ => ⟨mem, rfl, rfl, fun j => by rw [if_neg (by omega)]⟩
  | k + 1, o, q, mem, hk, ho, hq, hm => by
    obtain ⟨m1, e1, l1, s1⟩ := wrEl (el mem w (o - 1)) (show q - 1 < N by omega) hm
    obtain ⟨m, e, l, s⟩ := moveBack_spec w N k (o - 1) (q - 1) m1 (by omega) (by omega) (by omega) (by omega)
    refine ⟨m, by rw [moveBack, rdEl (show o - 1 < N by omega) hm]; dsimp only; rw [e1]; exact e, by omega, fun j => ?_⟩
    rw [s]
    by_cases h2 : q - 1 - k ≤ j ∧ j < q - 1
    · rw [if_pos h2, if_pos (by omega), s1, if_neg (by omega)]
      congr 1; omega
    · rw [if_neg h2, s1]
      by_cases h1 : j = q - 1
      · rw [if_pos h1, if_pos (by omega), Nat.mod_eq_of_lt (el_lt _ _ _)]
        congr 1; omega
      · rw [if_neg h1, if_neg (by omega)]

theorem moveFwd_spec (w N : Nat) : ∀ (k o q : Nat) (mem : List Bool), q ≤ o → o + k ≤ N → N * w ≤ mem.length →
    ∃ m, moveFwd w k o q mem = .ok m ∧ m.length = mem.length ∧ ∀ j, el m w j = if q ≤ j ∧ j < q + k then el mem w (j + (o - q)) else el mem w j
  | 0, o, q, mem, _, _, _ => ⟨mem, rfl, rfl, fun j => by rw [if_neg (by omega)]⟩
  | k + 1, o, q, mem, ho, hk, hm => by
    obtain ⟨m1, e1, l1, s1⟩ := wrEl (el mem w o) (show q < N by omega) hm
    obtain ⟨m, e, l, s⟩ := moveFwd_spec w N k (o + 1) (q + 1) m1 (by omega) (by omega) (by omega)
    refine ⟨m, by rw [moveFwd, rdEl (show o < N by omega) hm]; dsimp only; rw [e1]; exact e, by omega, fun j => ?_⟩
    rw [s]
    by_cases h2 : q + 1 ≤ j ∧ j < q + 1 + k
    · rw [if_pos h2, if_pos (by omega), s1, if_neg (by omega)]
      congr 1; omega
    · rw [if_neg h2, s1]
      by_cases h1 : j = q
      · rw [if_pos h1, if_pos (by omega), Nat.mod_eq_of_lt (el_lt _ _ _)]
        congr 1; omega
      · rw [if_neg h1, if_neg (by omega)]

theorem regridUp_spec (ow nw : Nat) (hw : ow ≤ nw) : ∀ (i : Nat) (mem : List Bool), i * nw ≤ mem.length →
    ∃ m, regridUp ow nw i mem = .ok m ∧ m.length = mem.length ∧ (∀ j, j < i → el m nw j = el mem ow j) ∧
      ∀ q u, i * nw ≤ q → valAt m q u = valAt mem q u
  | 0, mem, _ => ⟨mem, rfl, rfl, fun j hj => by omega, fun _ _ _ => rfl⟩
  | i + 1, mem, hm => by
    have h0 : i * nw + nw ≤ mem.length := by rwa [Nat.succ_mul] at hm
    have h1 : i * ow ≤ i * nw := Nat.mul_le_mul_left i hw
    obtain ⟨m1, e1, l1, v1, d1⟩ := wrBits_spec (p := i * nw) (w := nw) (el mem ow i) h0
    obtain ⟨m, e, l, s, d⟩ := regridUp_spec ow nw hw i m1 (by omega)
    refine ⟨m, ?_, by omega, fun j hj => ?_, fun q u hq => ?_⟩
    · rw [regridUp, rdBits_eq (by omega)]
      dsimp only
      rw [show valAt mem (i * ow) ow = el mem ow i from rfl, e1]
      exact e
    · by_cases hji : j = i
      · subst hji
        unfold el
        rw [d _ _ (Nat.le_refl _), v1]
        exact Nat.mod_eq_of_lt (Nat.lt_of_lt_of_le (el_lt _ _ _) (Nat.pow_le_pow_right (by decide) hw))
      · have hlt : j < i := by omega
        rw [s j hlt]
        exact d1 _ _ (.inl (Nat.le_trans (fit hlt) h1))
    · rw [Nat.succ_mul] at hq
      rw [d q u (by omega), d1 q u (.inr hq)]

theorem regridDown_spec (ow nw : Nat) (hw : nw ≤ ow) : ∀ (k i : Nat) (mem : List Bool), (i + k) * ow ≤ mem.length →
    ∃ m, regridDown ow nw k i mem = .ok m ∧ m.length = mem.length ∧ (∀ j, i ≤ j → j < i + k → el m nw j = el mem ow j % 2 ^ nw) ∧
      ∀ q u, q + u ≤ i * nw → valAt m q u = valAt mem q u
  | 0, i, mem, _ => ⟨mem, rfl, rfl, fun j hj hk => by omega, fun _ _ _ => rfl⟩
  | k + 1, i, mem, hm => by
    have h0 : i * ow + ow ≤ (i + (k + 1)) * ow := fit (by omega)
    have h1 : i * nw ≤ i * ow := Nat.mul_le_mul_left i hw
    obtain ⟨m1, e1, l1, v1, d1⟩ := wrBits_spec (p := i * nw) (w := nw) (el mem ow i) (mem := mem) (by omega)
    obtain ⟨m, e, l, s, d⟩ := regridDown_spec ow nw hw k (i + 1) m1 (by rw [l1, show i + 1 + k = i + (k + 1) by omega]; exact hm)
    refine ⟨m, ?_, by omega, fun j hj hk => ?_, fun q u hq => ?_⟩
    · rw [regridDown, rdBits_eq (by omega)]
      dsimp only
      rw [show valAt mem (i * ow) ow = el mem ow i from rfl, e1]
      exact e
    · by_cases hji : j = i
      · subst hji
        unfold el
        rw [d _ _ (by rw [Nat.succ_mul]), v1]
        rfl
      · rw [s j (by omega) (by omega)]
        have hlt : i < j := by omega
        have h2 := fit (w := ow) hlt
        have : el m1 ow j = el mem ow j := d1 _ _ (.inr (by omega))
        rw [this]
    · have : i * nw ≤ (i + 1) * nw := Nat.mul_le_mul_right nw (by omega)
      rw [d q u (by omega), d1 q u (.inl hq)]

/-! ### The backing -/

theorem words_mul (b : Nat) : b ≤ 64 * words b ∧ 64 * words b < b + 64 := by
  unfold words
  split <;> omega

theorem words_unique {b n : Nat} (h1 : b ≤ 64 * n) (h2 : 64 * n < b + 64) : words b = n := by
  have := words_mul b
  omega

theorem words_mono {a b : Nat} (h : a ≤ b) : words a ≤ words b := by
  have := words_mul a
  have := words_mul b
  omega

theorem memResize_length (mem : List Bool) (n : Nat) : (memResize mem n).length = 64 * n := by
  simp only [memResize, List.length_append, List.length_take, List.length_replicate]
  omega

theorem valAt_append {mem x : List Bool} {p w : Nat} (h : p + w ≤ mem.length) : valAt (mem ++ x) p w = valAt mem p w := by
  unfold valAt
  rw [List.drop_append_of_le_length (by omega), List.take_append_of_le_length (by simp; omega)]

theorem valAt_take {mem : List Bool} {n p w : Nat} (h : p + w ≤ n) : valAt (mem.take n) p w = valAt mem p w := by
  unfold valAt
  rw [List.drop_take, List.take_take, Nat.min_eq_left (by omega)]

theorem valAt_memResize {mem : List Bool} {n p w : Nat} (h1 : p + w ≤ mem.length) (h2 : p + w ≤ 64 * n) : valAt (memResize mem n) p w = valAt mem p w := by
  unfold memResize
  rw [valAt_append (by simp only [List.length_take]; omega), valAt_take h2]

theorem pushWords_eq (bits : Nat) : ∀ n (mem : List Bool), bits ≤ mem.length + 64 * n → ∃ x, pushWords bits n mem = mem ++ x ∧ bits ≤ (mem ++ x).length ∧
    (∃ k, x.length = 64 * k) ∧ (bits ≤ mem.length → x = []) ∧ (mem.length < bits → (mem ++ x).length < bits + 64)
  | 0, mem, h => ⟨[], by simp [pushWords], by simp; omega, ⟨0, rfl⟩, fun _ => rfl, fun hl => by omega⟩
  | n + 1, mem, h => by
    unfold pushWords
    split
    · obtain ⟨x, e, hb, ⟨k, hk⟩, h0, h1⟩ := pushWords_eq bits n (mem ++ List.replicate 64 false) (by simp; omega)
      refine ⟨List.replicate 64 false ++ x, by rw [e, List.append_assoc], by rw [← List.append_assoc]; exact hb, ⟨k + 1, by simp [hk]; omega⟩, fun hl => by omega, fun hl => ?_⟩
      rw [← List.append_assoc]
      by_cases hle : bits ≤ (mem ++ List.replicate 64 false).length
      · rw [h0 hle]
        simp; omega
      · exact h1 (by omega)
    · exact ⟨[], by simp, by simp; omega, ⟨0, rfl⟩, fun _ => rfl, fun hl => by omega⟩

theorem popWords_eq (bits : Nat) : ∀ n (mem : List Bool), (∃ k, mem.length = 64 * k) → 64 * words bits ≤ mem.length → mem.length ≤ 64 * words bits + 64 * n →
    popWords bits n mem = mem.take (64 * words bits)
  | 0, mem, _, h1, h2 => by rw [popWords, List.take_of_length_le (by omega)]
  | n + 1, mem, ⟨k, hk⟩, h1, h2 => by
    unfold popWords
    split
    · rw [popWords_eq bits n _ ⟨k - 1, by simp; omega⟩ (by simp; omega) (by simp; omega), List.take_take, Nat.min_eq_left (by omega)]
    · rw [List.take_of_length_le (by omega)]

end BPV
end Tdc
