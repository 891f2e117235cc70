import Verif.Model.EspWT
import Verif.Spec.DCoding
import Verif.Lemmas.IntCodes
import Mathlib.Data.List.Induction

/-!
# Wavelet trees: construction and reading
-/

namespace Tdc
namespace Esp

/-! ## Stable counting positions -/

/-- Where the element at index `t`, with key `k`, ends up when `v` is sorted stably by the keys. -/
def spos (f : Nat → Nat) (v : List Nat) (t k : Nat) : Nat := v.countP (fun y => f y < k) + (v.take t).countP (fun y => f y = k)

theorem countP_lt_succ (f : Nat → Nat) (v : List Nat) (k : Nat) :
    v.countP (fun y => f y < k + 1) = v.countP (fun y => f y < k) + v.countP (fun y => f y = k) := by
  induction v with
  | nil => rfl
  | cons x v ih =>
    simp only [List.countP_cons, ih]
    rcases Nat.lt_trichotomy (f x) k with h | h | h
    · simp [h, show f x < k + 1 by omega, show f x ≠ k by omega]; omega
    · simp [h]; omega
    · simp [show ¬ f x < k + 1 by omega, show ¬ f x < k by omega, show f x ≠ k by omega]

theorem countP_lt_mono (f : Nat → Nat) (v : List Nat) {a b : Nat} (h : a ≤ b) : v.countP (fun y => f y < a) ≤ v.countP (fun y => f y < b) :=
  List.countP_mono_left (by intro x _ hx; simp only [decide_eq_true_eq] at *; omega)

theorem countP_take_le (P : Nat → Bool) (v : List Nat) (t : Nat) : (v.take t).countP P ≤ v.countP P :=
  (List.take_sublist t v).countP_le

theorem countP_take_succ (P : Nat → Bool) {v : List Nat} {t x : Nat} (h : v[t]? = some x) :
    (v.take (t + 1)).countP P = (v.take t).countP P + if P x then 1 else 0 := by
  obtain ⟨hl, hx⟩ := List.getElem?_eq_some_iff.1 h
  rw [List.take_add_one, h, List.countP_append]
  simp only [Option.toList_some, List.countP_singleton]

theorem countP_take_lt {P : Nat → Bool} {v : List Nat} {t x : Nat} (h : v[t]? = some x) (hp : P x = true) : (v.take t).countP P < v.countP P := by
  have h1 := countP_take_succ P h
  have h2 := countP_take_le P v (t + 1)
  rw [if_pos hp] at h1
  omega

theorem spos_lt {f : Nat → Nat} {v : List Nat} {t x : Nat} (h : v[t]? = some x) :
    v.countP (fun y => f y < f x) ≤ spos f v t (f x) ∧ spos f v t (f x) < v.countP (fun y => f y < f x + 1) := by
  have h1 := countP_take_lt (P := fun y => decide (f y = f x)) h (by simp)
  have h2 := countP_lt_succ f v (f x)
  unfold spos
  constructor
  · omega
  · omega

theorem spos_lt_length {f : Nat → Nat} {v : List Nat} {t x : Nat} (h : v[t]? = some x) : spos f v t (f x) < v.length :=
  Nat.lt_of_lt_of_le (spos_lt h).2 List.countP_le_length

theorem spos_inj {f : Nat → Nat} {v : List Nat} {t t' x x' : Nat} (h : v[t]? = some x) (h' : v[t']? = some x')
    (e : spos f v t (f x) = spos f v t' (f x')) : t = t' := by
  have hk : f x = f x' := by
    have a := spos_lt (f := f) h
    have b := spos_lt (f := f) h'
    rcases Nat.lt_trichotomy (f x) (f x') with hlt | heq | hlt
    · have := countP_lt_mono f v (show f x + 1 ≤ f x' by omega)
      omega
    · exact heq
    · have := countP_lt_mono f v (show f x' + 1 ≤ f x by omega)
      omega
  unfold spos at e
  rw [← hk] at e
  have e2 : (v.take t).countP (fun y => decide (f y = f x)) = (v.take t').countP (fun y => decide (f y = f x)) := by omega
  have mono : ∀ a b : Nat, a ≤ b → (v.take a).countP (fun y => decide (f y = f x)) ≤ (v.take b).countP (fun y => decide (f y = f x)) := by
    intro a b hab
    have : v.take a = (v.take b).take a := by rw [List.take_take, Nat.min_eq_left hab]
    rw [this]
    exact countP_take_le _ _ _
  rcases Nat.lt_trichotomy t t' with hlt | heq | hlt
  · have h1 := countP_take_succ (fun y => decide (f y = f x)) h
    have h2 := mono (t + 1) t' hlt
    simp only [decide_true, if_true] at h1
    omega
  · exact heq
  · have h1 := countP_take_succ (fun y => decide (f y = f x)) h'
    have h2 := mono (t' + 1) t hlt
    simp only [hk, decide_true, if_true] at h1
    simp only [hk] at e2 h2
    omega

/-- The part of a list satisfying `P`, by ranks. -/
theorem filter_rank {P : Nat → Bool} : ∀ (v : List Nat) (i y : Nat), (v.filter P)[i]? = some y → ∃ t, v[t]? = some y ∧ P y = true ∧ (v.take t).countP P = i
  | [], i, y, h => by simp at h
  | x :: v, i, y, h => by
    by_cases hx : P x = true
    · rw [List.filter_cons_of_pos hx] at h
      cases i with
      | zero =>
        simp only [List.getElem?_cons_zero, Option.some.injEq] at h
        subst h
        exact ⟨0, rfl, hx, rfl⟩
      | succ i =>
        rw [List.getElem?_cons_succ] at h
        obtain ⟨t, h1, h2, h3⟩ := filter_rank v i y h
        exact ⟨t + 1, by simpa using h1, h2, by simp [List.take_succ_cons, List.countP_cons, hx, h3]⟩
    · rw [List.filter_cons_of_neg hx] at h
      obtain ⟨t, h1, h2, h3⟩ := filter_rank v i y h
      exact ⟨t + 1, by simpa using h1, h2, by simp [List.take_succ_cons, List.countP_cons, hx, h3]⟩

/-! ## Bits of words -/

/-- Bit `j` of words filled from the left -/
def wbit (words : List Nat) (j : Nat) : Bool := (words[j / 64]?.getD 0).testBit (63 - j % 64)

theorem shift6 (p : Nat) : p >>> 6 = p / 64 := by rw [Nat.shiftRight_eq_div_pow]

theorem and63 (p : Nat) : p &&& 63 = p % 64 := Nat.and_two_pow_sub_one_eq_mod p 6

theorem testBit_bit (x s k i : Nat) (hk : k < 64) : ((((x >>> s) &&& 1) <<< k) % 2 ^ 64).testBit i = (decide (i = k) && x.testBit s) := by
  rw [Nat.testBit_mod_two_pow, Nat.testBit_shiftLeft]
  by_cases hi : i = k
  · subst hi
    simp [hk, Nat.testBit, Nat.and_comm]
  · have : ((x >>> s) &&& 1).testBit (i - k) = false ∨ ¬ k ≤ i := by
      by_cases h : k ≤ i
      · left
        rw [Nat.testBit_and]
        have : (1 : Nat).testBit (i - k) = false := by
          apply Nat.testBit_lt_two_pow
          exact Nat.one_lt_two_pow (by omega)
        rw [this, Bool.and_false]
      · exact .inr h
    rcases this with h | h
    · rw [h]; simp [hi]
    · simp [hi, h]

theorem wbit_set (words : List Nat) (p x s word : Nat) (h : words[p >>> 6]? = some word) (j : Nat) :
    wbit (words.set (p >>> 6) (word ||| ((((x >>> s) &&& 1) <<< (63 - (p &&& 63))) % 2 ^ 64))) j = (wbit words j || (decide (j = p) && x.testBit s)) := by
  rw [shift6] at *
  rw [and63]
  obtain ⟨hl, hw⟩ := List.getElem?_eq_some_iff.1 h
  unfold wbit
  by_cases hj : j / 64 = p / 64
  · rw [hj, h]
    simp only [List.getElem?_set, hl, if_true, Option.getD_some, Nat.testBit_or, testBit_bit _ _ _ _ (show 63 - p % 64 < 64 by omega)]
    have : decide (63 - j % 64 = 63 - p % 64) = decide (j = p) := by
      rw [decide_eq_decide]
      omega
    rw [this]
  · rw [List.getElem?_set_ne (by omega)]
    have : decide (j = p) = false := by simp; rintro rfl; exact hj rfl
    rw [this, Bool.false_and, Bool.or_false]

theorem revStep_bit {lo hi s x i : Nat} : (revStep lo hi s x).testBit i = ((decide (s ≤ i) && (x.testBit (i - s) && lo.testBit (i - s))) || (x.testBit (s + i) && hi.testBit (s + i))) := by
  unfold revStep
  rw [Nat.testBit_or, Nat.testBit_shiftLeft, Nat.testBit_shiftRight, Nat.testBit_and, Nat.testBit_and]

theorem revStep_xor {lo hi s x : Nat} (h : ∀ i < 64, (decide (s ≤ i) && lo.testBit (i - s)) = decide (i ^^^ s < i) ∧ hi.testBit (s + i) = decide (i < i ^^^ s) ∧
    (i ^^^ s < i → i - s = i ^^^ s) ∧ (i < i ^^^ s → s + i = i ^^^ s) ∧ i ^^^ s ≠ i) {i : Nat} (hi' : i < 64) :
    (revStep lo hi s x).testBit i = x.testBit (i ^^^ s) := by
  obtain ⟨h1, h2, h3, h4, h5⟩ := h i hi'
  rw [revStep_bit, h2]
  have e : (decide (s ≤ i) && (x.testBit (i - s) && lo.testBit (i - s))) = (decide (i ^^^ s < i) && x.testBit (i - s)) := by
    rw [← h1]
    cases decide (s ≤ i) <;> cases x.testBit (i - s) <;> cases lo.testBit (i - s) <;> rfl
  rw [e]
  rcases Nat.lt_or_ge (i ^^^ s) i with hlt | hge
  · rw [h3 hlt]
    simp [hlt, show ¬ i < i ^^^ s by omega]
  · have : i < i ^^^ s := by omega
    rw [h4 this]
    simp [this, show ¬ i ^^^ s < i by omega]

theorem rev64_bit (x : Nat) {i : Nat} (hi : i < 64) : (rev64 x).testBit i = x.testBit (63 - i) := by
  unfold rev64
  simp only
  have lt : ∀ (s : Nat), s < 64 → ∀ {i : Nat}, i < 64 → i ^^^ s < 64 := fun s hs i hi => Nat.xor_lt_two_pow (n := 6) hi hs
  rw [revStep_xor (by decide +kernel) hi, revStep_xor (by decide +kernel) (lt 32 (by decide) hi),
    revStep_xor (by decide +kernel) (lt 16 (by decide) (lt 32 (by decide) hi)),
    revStep_xor (by decide +kernel) (lt 8 (by decide) (lt 16 (by decide) (lt 32 (by decide) hi))),
    revStep_xor (by decide +kernel) (lt 4 (by decide) (lt 8 (by decide) (lt 16 (by decide) (lt 32 (by decide) hi)))),
    revStep_xor (by decide +kernel) (lt 2 (by decide) (lt 4 (by decide) (lt 8 (by decide) (lt 16 (by decide) (lt 32 (by decide) hi)))))]
  have : ∀ i < 64, i ^^^ 32 ^^^ 16 ^^^ 8 ^^^ 4 ^^^ 2 ^^^ 1 = 63 - i := by decide +kernel
  rw [this i hi]

theorem rev64_zero : rev64 0 = 0 := by decide +kernel

theorem wtBits_get (n : Nat) (words : List Nat) (j : Nat) (h : j < n) : (wtBits n (words.map rev64))[j]? = some (wbit words j) := by
  unfold wtBits wbit
  simp only [List.getElem?_map, List.getElem?_range h, Option.map_some]
  have : (Option.map rev64 words[j / 64]?).getD 0 = rev64 (words[j / 64]?.getD 0) := by
    cases words[j / 64]? with
    | none => exact rev64_zero.symm
    | some w => rfl
  rw [this, rev64_bit _ (Nat.mod_lt _ (by omega))]

theorem wtBits_length (n : Nat) (words : List Nat) : (wtBits n words).length = n := by simp [wtBits]

/-! ## The first level -/

theorem wtPack_append (s : Nat) (l : List Nat) (x : Nat) : wtPack s (l ++ [x]) = (wtPack s l <<< 1) % 2 ^ 64 ||| ((x >>> s) &&& 1) := by
  simp [wtPack, List.foldl_append]

theorem wtPack_bit (s : Nat) : ∀ (l : List Nat), l.length ≤ 64 → ∀ i : Nat, (wtPack s l).testBit i = (decide (i < l.length) && (l[l.length - 1 - i]?.getD 0).testBit s) := by
  intro l
  induction l using List.reverseRecOn with
  | nil => intro _ i; simp [wtPack]
  | append_singleton l x ih =>
    intro hl i
    rw [List.length_append, List.length_singleton] at hl
    have hb := testBit_bit x s 0 i (by omega)
    rw [Nat.shiftLeft_zero] at hb
    have hsmall : ((x >>> s) &&& 1) % 2 ^ 64 = (x >>> s) &&& 1 := by
      apply Nat.mod_eq_of_lt
      have := Nat.and_le_right (n := x >>> s) (m := 1)
      omega
    rw [hsmall] at hb
    rw [wtPack_append, Nat.testBit_or, hb, Nat.testBit_mod_two_pow, Nat.testBit_shiftLeft, ih (by omega)]
    simp only [List.length_append, List.length_singleton]
    cases i with
    | zero => simp
    | succ i =>
      by_cases hi : i < l.length
      · rw [List.getElem?_append_left (by omega)]
        simp [hi, show i + 1 < 64 by omega]
        rw [show l.length - (i + 1) = l.length - 1 - i by omega]
      · simp [hi]

theorem wtLevel0_spec (s : Nat) : ∀ (m : Nat) (l : List Nat), l.length ≤ m → ∀ t x : Nat, l[t]? = some x → wbit (wtLevel0 s l) t = x.testBit s := by
  intro m
  induction m with
  | zero =>
    intro l h t x hx
    have : l = [] := by simpa using h
    subst this
    simp at hx
  | succ m ih =>
    intro l h t x hx
    obtain ⟨htl, hxe⟩ := List.getElem?_eq_some_iff.1 hx
    rw [wtLevel0]
    split
    · rename_i hge
      unfold wbit
      by_cases ht : t < 64
      · rw [Nat.div_eq_of_lt ht, Nat.mod_eq_of_lt ht]
        simp only [List.getElem?_cons_zero, Option.getD_some]
        rw [wtPack_bit _ _ (by simp; omega)]
        simp only [List.length_take, Nat.min_eq_left hge, show 64 - 1 - (63 - t) = t by omega]
        rw [List.getElem?_take_of_lt ht, hx]
        simp only [Option.getD_some, Bool.and_eq_right_iff_imp, decide_eq_true_eq]
        omega
      · have e1 : t / 64 = (t - 64) / 64 + 1 := by omega
        have e2 : t % 64 = (t - 64) % 64 := by omega
        rw [e1, e2, List.getElem?_cons_succ]
        exact ih (l.drop 64) (by simp; omega) (t - 64) x (by rw [List.getElem?_drop, show 64 + (t - 64) = t by omega, hx])
    · rename_i hlt
      rw [if_pos (by omega)]
      unfold wbit
      rw [Nat.div_eq_of_lt (show t < 64 by omega), Nat.mod_eq_of_lt (show t < 64 by omega)]
      simp only [List.getElem?_cons_zero, Option.getD_some]
      rw [Nat.testBit_mod_two_pow, Nat.testBit_shiftLeft, wtPack_bit _ _ (by omega)]
      simp only [show l.length - 1 - (63 - t - (64 - l.length)) = t by omega, hx, Option.getD_some]
      simp only [show 63 - t < 64 by omega, show 63 - t ≥ 64 - l.length by omega, show 63 - t - (64 - l.length) < l.length by omega, decide_true, Bool.true_and]

/-! ## The other levels -/

theorem wtHist_ok : ∀ (l hist pre : List Nat), (∀ x ∈ l, x < hist.length) → (∀ p < hist.length, hist[p]? = some (pre.countP (fun y => y = p))) →
    ∃ hist', wtHist l hist = .ok hist' ∧ hist'.length = hist.length ∧ ∀ p < hist.length, hist'[p]? = some ((pre ++ l).countP (fun y => y = p))
  | [], hist, pre, _, h => ⟨hist, rfl, rfl, by simpa using h⟩
  | x :: l, hist, pre, hb, h => by
    have hx := hb x (by simp)
    rw [wtHist, h x hx]
    simp only
    obtain ⟨h', e1, e2, e3⟩ := wtHist_ok l (hist.set x (pre.countP (fun y => y = x) + 1)) (pre ++ [x]) (by
      intro y hy; rw [List.length_set]; exact hb y (by simp [hy])) (by
      intro p hp
      rw [List.length_set] at hp
      rw [List.getElem?_set]
      simp only [List.countP_append, List.countP_singleton, decide_eq_true_eq]
      by_cases hpx : x = p
      · subst hpx
        simp [hp]
      · simp [hpx, h p hp])
    refine ⟨h', e1, by rw [e2, List.length_set], ?_⟩
    intro p hp
    rw [e3 p (by rw [List.length_set]; exact hp), List.append_assoc]
    rfl

theorem countP_shift_succ (v : List Nat) (s p : Nat) :
    v.countP (fun y => y >>> (s + 1) = p) = v.countP (fun y => y >>> s = 2 * p) + v.countP (fun y => y >>> s = 2 * p + 1) := by
  induction v with
  | nil => rfl
  | cons x v ih =>
    simp only [List.countP_cons, ih, decide_eq_true_eq]
    rw [Nat.shiftRight_succ]
    generalize x >>> s = k
    split <;> split <;> split <;> omega

theorem wtHalve_ok (v : List Nat) (s : Nat) : ∀ (k i : Nat) (hist : List Nat), 2 * (i + k) ≤ hist.length →
    (∀ p < i, hist[p]? = some (v.countP (fun y => y >>> (s + 1) = p))) → (∀ p, 2 * i ≤ p → p < 2 * (i + k) → hist[p]? = some (v.countP (fun y => y >>> s = p))) →
    ∃ hist', wtHalve k i hist = .ok hist' ∧ hist'.length = hist.length ∧ ∀ p < i + k, hist'[p]? = some (v.countP (fun y => y >>> (s + 1) = p))
  | 0, i, hist, _, h1, _ => ⟨hist, rfl, rfl, by simpa using h1⟩
  | k + 1, i, hist, hl, h1, h2 => by
    have e : i <<< 1 = 2 * i := by rw [Nat.shiftLeft_eq]; omega
    rw [wtHalve, e, h2 (2 * i) (by omega) (by omega), h2 (2 * i + 1) (by omega) (by omega)]
    simp only
    rw [if_pos (by omega), ← countP_shift_succ]
    obtain ⟨h', e1, e2, e3⟩ := wtHalve_ok v s k (i + 1) (hist.set i (v.countP (fun y => y >>> (s + 1) = i))) (by rw [List.length_set]; omega) (by
      intro p hp
      by_cases hpi : p = i
      · subst hpi
        rw [List.getElem?_set_self (by omega)]
      · rw [List.getElem?_set_ne (by omega)]
        exact h1 p (by omega)) (by
      intro p hp1 hp2
      rw [List.getElem?_set_ne (by omega)]
      exact h2 p (by omega) (by omega))
    exact ⟨h', e1, by rw [e2, List.length_set], fun p hp => e3 p (by omega)⟩

theorem wtBorders_ok (v hist : List Nat) (f : Nat → Nat) : ∀ (k i : Nat) (borders : List Nat), 1 ≤ i → i + k ≤ borders.length →
    (∀ p, p + 1 < i + k → hist[p]? = some (v.countP (fun y => f y = p))) → (∀ p < i, borders[p]? = some (v.countP (fun y => f y < p))) →
    ∃ b', wtBorders hist k i borders = .ok b' ∧ b'.length = borders.length ∧ ∀ p < i + k, b'[p]? = some (v.countP (fun y => f y < p))
  | 0, i, borders, _, _, _, h => ⟨borders, rfl, rfl, by simpa using h⟩
  | k + 1, i, borders, hi, hl, hh, h => by
    rw [wtBorders, h (i - 1) (by omega), hh (i - 1) (by omega)]
    simp only
    rw [if_pos (by omega), ← countP_lt_succ, show i - 1 + 1 = i by omega]
    obtain ⟨b', e1, e2, e3⟩ := wtBorders_ok v hist f k (i + 1) (borders.set i (v.countP (fun y => f y < i))) (by omega) (by rw [List.length_set]; omega)
      (fun p hp => hh p (by omega)) (by
      intro p hp
      by_cases hpi : p = i
      · subst hpi
        rw [List.getElem?_set_self (by omega)]
      · rw [List.getElem?_set_ne (by omega)]
        exact h p (by omega))
    exact ⟨b', e1, by rw [e2, List.length_set], fun p hp => e3 p (by omega)⟩

theorem wtScatter_ok (v : List Nat) (ps bs m : Nat) : ∀ (l : List Nat) (t : Nat) (borders words : List Nat), v.drop t = l → t ≤ v.length → (∀ x ∈ v, x >>> ps < m) →
    m ≤ borders.length → (v.length + 63) / 64 ≤ words.length →
    (∀ p < m, borders[p]? = some (v.countP (fun y => y >>> ps < p) + (v.take t).countP (fun y => y >>> ps = p))) →
    (∀ j, wbit words j = true ↔ ∃ t' x, t' < t ∧ v[t']? = some x ∧ spos (· >>> ps) v t' (x >>> ps) = j ∧ x.testBit bs = true) →
    ∃ b' w', wtScatter ps bs l borders words = .ok (b', w') ∧ b'.length = borders.length ∧
      (∀ j, wbit w' j = true ↔ ∃ t' x, v[t']? = some x ∧ spos (· >>> ps) v t' (x >>> ps) = j ∧ x.testBit bs = true)
  | [], t, borders, words, hd, ht, _, _, _, _, hw => by
    refine ⟨borders, words, rfl, rfl, ?_⟩
    have : v.length ≤ t := by simpa using hd
    intro j
    rw [hw j]
    constructor
    · rintro ⟨t', x, _, h⟩; exact ⟨t', x, h⟩
    · rintro ⟨t', x, h, h'⟩
      exact ⟨t', x, by have := (List.getElem?_eq_some_iff.1 h).1; omega, h, h'⟩
  | x :: l, t, borders, words, hd, ht, hm, hb, hwl, hbo, hw => by
    have htl : t < v.length := by
      rcases Nat.lt_or_ge t v.length with h | h
      · exact h
      · rw [List.drop_eq_nil_of_le h] at hd; simp at hd
    have hx : v[t]? = some x := by
      have := List.getElem?_drop (xs := v) (i := t) (j := 0)
      rw [hd] at this
      simpa using this.symm
    have hmem : x ∈ v := List.mem_of_getElem? hx
    have hkm := hm x hmem
    have hpos := hbo (x >>> ps) hkm
    change borders[x >>> ps]? = some (spos (· >>> ps) v t (x >>> ps)) at hpos
    have hlt := spos_lt_length (f := (· >>> ps)) hx
    try simp only at hlt
    rw [wtScatter, hpos]
    simp only
    generalize hp : spos (· >>> ps) v t (x >>> ps) = pos at *
    have hwi : pos >>> 6 < words.length := by rw [shift6]; omega
    obtain ⟨word, hword⟩ : ∃ word, words[pos >>> 6]? = some word := ⟨words[pos >>> 6], List.getElem?_eq_getElem hwi⟩
    rw [hword]
    simp only
    obtain ⟨b', w', e1, e2, e3⟩ := wtScatter_ok v ps bs m l (t + 1) (borders.set (x >>> ps) (pos + 1))
      (words.set (pos >>> 6) (word ||| ((((x >>> bs) &&& 1) <<< (63 - (pos &&& 63))) % 2 ^ 64))) (by
        rw [← List.drop_drop, hd]; rfl) (by omega) hm (by rw [List.length_set]; exact hb) (by rw [List.length_set]; exact hwl) (by
        intro p hp'
        rw [countP_take_succ _ hx]
        by_cases hpx : x >>> ps = p
        · subst hpx
          rw [List.getElem?_set_self (by omega)]
          rw [← hp, spos]
          simp [Nat.add_assoc]
        · rw [List.getElem?_set_ne hpx, hbo p hp']
          simp [hpx]) (by
        intro j
        rw [wbit_set _ _ _ _ _ hword, Bool.or_eq_true, hw j, Bool.and_eq_true, decide_eq_true_eq]
        constructor
        · rintro (⟨t', y, h1, h2⟩ | ⟨h1, h2⟩)
          · exact ⟨t', y, by omega, h2⟩
          · exact ⟨t, x, by omega, hx, by rw [hp, h1], h2⟩
        · rintro ⟨t', y, h1, h2, h3, h4⟩
          by_cases htt : t' = t
          · subst htt
            rw [hx] at h2
            simp only [Option.some.injEq] at h2
            subst h2
            exact .inr ⟨by rw [← h3, hp], h4⟩
          · exact .inl ⟨t', y, by omega, h2, h3, h4⟩)
    exact ⟨b', w', e1, by rw [e2, List.length_set], e3⟩

/-- The bit vectors of the wavelet tree of `v` with `L` levels: on level `d` the bit behind the first `d` of each value, values sorted stably by these. -/
def WtOk (v : List Nat) (L : Nat) (bvs : List (List Bool)) : Prop :=
  bvs.length = L ∧ ∀ d < L, ∃ bv, bvs[d]? = some bv ∧ bv.length = v.length ∧
    ∀ t x : Nat, v[t]? = some x → bv[spos (· >>> (L - d)) v t (x >>> (L - d))]? = some (x.testBit (L - 1 - d))

/-- The words of one level -/
def LvlOk (v : List Nat) (L d : Nat) (words : List Nat) : Prop :=
  ∀ t x : Nat, v[t]? = some x → wbit words (spos (· >>> (L - d)) v t (x >>> (L - d))) = x.testBit (L - 1 - d)

theorem shift_lt {x L s : Nat} (h : x < 2 ^ L) (hs : s ≤ L) : x >>> s < 2 ^ (L - s) := by
  rw [Nat.shiftRight_eq_div_pow, Nat.div_lt_iff_lt_mul (Nat.two_pow_pos s), ← Nat.pow_add, Nat.sub_add_cancel hs]
  exact h

theorem wbit_replicate (n j : Nat) : wbit (List.replicate n 0) j = false := by
  unfold wbit
  rw [List.getElem?_replicate]
  split <;> simp

theorem wtLevels_ok (v : List Nat) (L : Nat) (hv : ∀ x ∈ v, x < 2 ^ L) : ∀ (level : Nat) (hist borders : List Nat) (acc : List (List Nat)), level < L →
    hist.length = 2 ^ L → borders.length = 2 ^ L → (∀ p < 2 ^ (level + 1), hist[p]? = some (v.countP (fun y => y >>> (L - 1 - level) = p))) →
    acc.length = L - 1 - level → (∀ d, level < d → d < L → ∃ w, acc[d - (level + 1)]? = some w ∧ LvlOk v L d w) →
    ∃ r, wtLevels v L level (2 ^ (level + 1)) hist borders acc = .ok r ∧ r.length = L - 1 ∧ ∀ d, 0 < d → d < L → ∃ w, r[d - 1]? = some w ∧ LvlOk v L d w
  | 0, hist, borders, acc, _, _, _, _, ha, h => ⟨acc, rfl, by omega, fun d h0 hd => h d h0 hd⟩
  | level + 1, hist, borders, acc, hlt, hh, hb, hhist, ha, hacc => by
    have hps : L - (level + 1) = L - 1 - (level + 1) + 1 := by omega
    have hc : (2 : Nat) ^ (level + 1 + 1) >>> 1 = 2 ^ (level + 1) := by
      rw [Nat.shiftRight_eq_div_pow, Nat.pow_succ]; omega
    have hpow : (2 : Nat) ^ (level + 1) ≤ 2 ^ L := Nat.pow_le_pow_right (by omega) (by omega)
    have hpow2 : (2 : Nat) ^ (level + 1) * 2 ≤ 2 ^ L := by rw [← Nat.pow_succ]; exact Nat.pow_le_pow_right (by omega) (by omega)
    have hpos : 0 < (2 : Nat) ^ (level + 1) := Nat.two_pow_pos _
    simp only [wtLevels, hc]
    obtain ⟨hist', e1, e2, e3⟩ := wtHalve_ok v (L - 1 - (level + 1)) (2 ^ (level + 1)) 0 hist (by omega) (by intro p hp; omega) (by
      intro p _ hp
      exact hhist p (by rw [Nat.pow_succ]; omega))
    rw [e1]
    simp only [Except.bind]
    rw [if_pos (by omega)]
    rw [← hps] at e3
    obtain ⟨b', f1, f2, f3⟩ := wtBorders_ok v hist' (· >>> (L - (level + 1))) (2 ^ (level + 1) - 1) 1 (borders.set 0 0) (by omega) (by rw [List.length_set]; omega)
      (fun p hp => e3 p (by omega)) (by
      intro p hp
      have : p = 0 := by omega
      subst this
      rw [List.getElem?_set_self (by omega)]
      simp)
    rw [f1]
    simp only
    obtain ⟨b'', w, g1, g2, g3⟩ := wtScatter_ok v (L - (level + 1)) (L - (level + 1) - 1) (2 ^ (level + 1)) v 0 b' (List.replicate ((v.length + 63) >>> 6) 0) rfl (by omega)
      (by
        intro x hx
        have := shift_lt (hv x hx) (show L - (level + 1) ≤ L by omega)
        rwa [show L - (L - (level + 1)) = level + 1 by omega] at this)
      (by rw [f2, List.length_set]; omega) (by simp [shift6]) (by
        intro p hp
        rw [f3 p (by omega)]
        simp) (by
        intro j
        rw [wbit_replicate]
        simp)
    rw [g1]
    simp only
    have := wtLevels_ok v L hv level hist' b'' (w :: acc) (by omega) (by rw [e2, hh]) (by rw [g2, f2, List.length_set, hb]) (by
      intro p hp
      rw [e3 p (by omega), show L - 1 - level = L - (level + 1) by omega]) (by simp; omega) (by
      intro d hd1 hd2
      by_cases hd : d = level + 1
      · subst hd
        refine ⟨w, by simp, ?_⟩
        intro t x hx
        rw [Bool.eq_iff_iff, g3]
        constructor
        · rintro ⟨t', y, h1, h2, h3⟩
          have := spos_inj (f := (· >>> (L - (level + 1)))) h1 hx h2
          subst this
          rw [hx] at h1
          simp only [Option.some.injEq] at h1
          subst h1
          rwa [show L - 1 - (level + 1) = L - (level + 1) - 1 by omega]
        · intro h
          exact ⟨t, x, hx, rfl, by rwa [show L - 1 - (level + 1) = L - (level + 1) - 1 by omega] at h⟩
      · obtain ⟨w', h1, h2⟩ := hacc d (by omega) hd2
        refine ⟨w', ?_, h2⟩
        rw [show d - (level + 1) = d - (level + 1 + 1) + 1 by omega, List.getElem?_cons_succ]
        exact h1)
    exact this

theorem countP_zero_key (v : List Nat) (L : Nat) (hv : ∀ x ∈ v, x < 2 ^ L) {t x : Nat} (h : v[t]? = some x) : spos (· >>> L) v t (x >>> L) = t := by
  have h0 : ∀ y ∈ v, y >>> L = 0 := fun y hy => by
    rw [Nat.shiftRight_eq_div_pow]; exact Nat.div_eq_of_lt (hv y hy)
  unfold spos
  rw [h0 x (List.mem_of_getElem? h)]
  have e1 : v.countP (fun y => decide (y >>> L < 0)) = 0 := by rw [List.countP_eq_zero]; simp
  have e2 : (v.take t).countP (fun y => decide (y >>> L = 0)) = (v.take t).length := by
    rw [List.countP_eq_length]
    intro y hy
    simp [h0 y (List.mem_of_mem_take hy)]
  rw [e1, e2, List.length_take, Nat.min_eq_left (Nat.le_of_lt (List.getElem?_eq_some_iff.1 h).1)]
  omega

theorem wtPc_ok (v : List Nat) (L : Nat) (h0 : 0 < L) (hL : L < 31) (hv : ∀ x ∈ v, x < 2 ^ L) :
    ∃ r, wtPc v L = .ok r ∧ r.length = L ∧ ∀ d < L, ∃ w, r[d]? = some w ∧ LvlOk v L d w := by
  unfold wtPc
  rw [if_neg (by omega), Nat.one_shiftLeft]
  obtain ⟨hist, e1, e2, e3⟩ := wtHist_ok v (List.replicate (2 ^ L) 0) [] (by simpa using hv) (by
    intro p hp
    rw [List.length_replicate] at hp
    simp [List.getElem?_replicate, hp])
  rw [e1]
  simp only [Except.bind]
  simp only [List.length_replicate, List.nil_append] at e2 e3
  obtain ⟨r, f1, f2, f3⟩ := wtLevels_ok v L hv (L - 1) hist (List.replicate (2 ^ L) 0) [] (by omega) e2 (by simp) (by
    intro p hp
    rw [show L - 1 + 1 = L by omega] at hp
    simpa using e3 p hp) (by simp) (by intro d h1 h2; omega)
  rw [show L - 1 + 1 = L by omega] at f1
  rw [f1]
  refine ⟨_, rfl, by simp; omega, ?_⟩
  intro d hd
  cases d with
  | zero =>
    refine ⟨_, rfl, ?_⟩
    intro t x hx
    rw [Nat.sub_zero, countP_zero_key v L hv hx, Nat.sub_zero]
    exact wtLevel0_spec _ v.length v (Nat.le_refl _) t x hx
  | succ d =>
    obtain ⟨w, h1, h2⟩ := f3 (d + 1) (by omega) hd
    exact ⟨w, by simpa using h1, h2⟩

theorem wtDepth_spec (mx : Nat) : mx < 2 ^ wtDepth mx ∧ ∀ k, mx < 2 ^ k → wtDepth mx ≤ k := by
  induction mx using Nat.strongRecOn with
  | ind mx ih =>
    rw [wtDepth]
    split
    · rename_i h
      subst h
      simp
    · rename_i h
      rw [Nat.shiftRight_eq_div_pow]
      obtain ⟨h1, h2⟩ := ih (mx / 2 ^ 1) (by omega)
      constructor
      · rw [Nat.pow_succ]; omega
      · intro k hk
        cases k with
        | zero => simp at hk; omega
        | succ k =>
          have := h2 k (by rw [Nat.pow_succ] at hk; omega)
          omega

theorem makeWt_ok (v : List Nat) (mx : Nat) (hmx : mx < 2 ^ 30) (hv : ∀ x ∈ v, x ≤ mx) : ∃ bvs, makeWt v mx = .ok bvs ∧ WtOk v (wtDepth mx) bvs := by
  unfold makeWt
  obtain ⟨d1, d2⟩ := wtDepth_spec mx
  have d3 := d2 30 hmx
  generalize wtDepth mx = L at *
  by_cases h0 : L = 0
  · subst h0
    exact ⟨[], by simp, rfl, by intro d hd; omega⟩
  · obtain ⟨r, e1, e2, e3⟩ := wtPc_ok v L (by omega) (by omega) (fun x hx => by have := hv x hx; omega)
    simp only [if_neg h0, e1, Except.bind]
    refine ⟨_, rfl, by simpa using e2, ?_⟩
    intro d hd
    obtain ⟨w, h1, h2⟩ := e3 d hd
    refine ⟨_, by rw [List.getElem?_map, h1]; rfl, wtBits_length _ _, ?_⟩
    intro t x hx
    rw [wtBits_get _ _ _ (spos_lt_length (f := (· >>> (L - d))) hx), h2 t x hx]

end Esp
end Tdc
