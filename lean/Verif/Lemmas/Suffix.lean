import Verif.Spec.Suffix
import Mathlib.Data.List.Perm.Subperm
import Mathlib.Tactic.ByContra

namespace Tdc

/-! ## Lexicographic order and common prefixes -/

theorem lcpLen_comm (a b : List UInt8) : lcpLen a b = lcpLen b a := by
  induction a generalizing b with
  | nil => cases b <;> rfl
  | cons x a ih =>
    cases b with
    | nil => rfl
    | cons y b =>
      simp only [lcpLen, ih b]
      by_cases h : x = y
      · simp [h]
      · rw [if_neg h, if_neg (Ne.symm h)]

theorem lcpLen_get (a b : List UInt8) (i : Nat) (h : i < lcpLen a b) : a[i]? = b[i]? ∧ i < a.length ∧ i < b.length := by
  induction a generalizing b i with
  | nil => simp [lcpLen] at h
  | cons x a ih =>
    cases b with
    | nil => simp [lcpLen] at h
    | cons y b =>
      simp only [lcpLen] at h
      split at h
      · cases i with
        | zero => simp_all
        | succ i => simpa using ih b i (by omega)
      · omega

theorem le_lcpLen (a b : List UInt8) (l : Nat) (h : ∀ i, i < l → a[i]? = b[i]? ∧ i < a.length) : l ≤ lcpLen a b := by
  induction a generalizing b l with
  | nil =>
    cases l with
    | zero => omega
    | succ l => have := (h 0 (by omega)).2; simp at this
  | cons x a ih =>
    cases l with
    | zero => omega
    | succ l =>
      cases b with
      | nil => have := (h 0 (by omega)).1; simp at this
      | cons y b =>
        have h0 := (h 0 (by omega)).1
        simp only [List.getElem?_cons_zero, Option.some.injEq] at h0
        subst h0
        simp only [lcpLen, if_true]
        have := ih b l (fun i hi => by
          have := h (i + 1) (by omega)
          simpa using this)
        omega

theorem lcpLen_stop (a b : List UInt8) (h : lcpLen a b < a.length) : a[lcpLen a b]? ≠ b[lcpLen a b]? := by
  intro he
  have := le_lcpLen a b (lcpLen a b + 1) (by
    intro i hi
    by_cases h' : i = lcpLen a b
    · subst h'; exact ⟨he, h⟩
    · have := lcpLen_get a b i (by omega)
      exact ⟨this.1, this.2.1⟩)
  omega

theorem u8_lt_trans {a b c : UInt8} (h1 : a < b) (h2 : b < c) : a < c := by
  rw [UInt8.lt_iff_toNat_lt] at *; omega

theorem u8_lt_irrefl (a : UInt8) : ¬ a < a := by
  rw [UInt8.lt_iff_toNat_lt]; omega

theorem lex_trans : ∀ {a b c : List UInt8}, a < b → b < c → a < c
  | _, [], _, h1, _ => absurd h1 (List.not_lt_nil _)
  | _, _ :: _, [], _, h2 => absurd h2 (List.not_lt_nil _)
  | [], _ :: _, z :: c, _, _ => List.nil_lt_cons z c
  | x :: a, y :: b, z :: c, h1, h2 => by
    rw [List.cons_lt_cons_iff] at *
    rcases h1 with h1 | ⟨rfl, h1⟩
    · rcases h2 with h2 | ⟨rfl, h2⟩
      · exact Or.inl (u8_lt_trans h1 h2)
      · exact Or.inl h1
    · rcases h2 with h2 | ⟨rfl, h2⟩
      · exact Or.inl h2
      · exact Or.inr ⟨rfl, lex_trans h1 h2⟩

theorem lex_irrefl : ∀ (a : List UInt8), ¬ a < a
  | [] => List.not_lt_nil _
  | x :: a => by
    rw [List.cons_lt_cons_iff]
    rintro (h | ⟨-, h⟩)
    · exact u8_lt_irrefl x h
    · exact lex_irrefl a h

theorem lex_total : ∀ (a b : List UInt8), a < b ∨ a = b ∨ b < a
  | [], [] => Or.inr (Or.inl rfl)
  | [], y :: b => Or.inl (List.nil_lt_cons y b)
  | x :: a, [] => Or.inr (Or.inr (List.nil_lt_cons x a))
  | x :: a, y :: b => by
    rw [List.cons_lt_cons_iff, List.cons_lt_cons_iff]
    by_cases h : x = y
    · subst h
      rcases lex_total a b with h | h | h
      · exact Or.inl (Or.inr ⟨rfl, h⟩)
      · subst h; exact Or.inr (Or.inl rfl)
      · exact Or.inr (Or.inr (Or.inr ⟨rfl, h⟩))
    · have : x < y ∨ y < x := by
        rw [UInt8.lt_iff_toNat_lt, UInt8.lt_iff_toNat_lt]
        have : x.toNat ≠ y.toNat := fun he => h (UInt8.toNat_inj.mp he)
        omega
      rcases this with h | h
      · exact Or.inl (Or.inl h)
      · exact Or.inr (Or.inr (Or.inl h))

/-- the common prefix of the outer two of three sorted strings -/
theorem lcpLen_mid : ∀ {a b c : List UInt8}, a < b → b < c → lcpLen a c = min (lcpLen a b) (lcpLen b c)
  | _, [], _, h1, _ => absurd h1 (List.not_lt_nil _)
  | _, _ :: _, [], _, h2 => absurd h2 (List.not_lt_nil _)
  | [], _ :: _, _ :: _, _, _ => by simp [lcpLen]
  | x :: a, y :: b, z :: c, h1, h2 => by
    rw [List.cons_lt_cons_iff] at h1 h2
    simp only [lcpLen]
    by_cases hxy : x = y
    · subst hxy
      have h1' : a < b := by
        rcases h1 with h | h
        · exact absurd h (u8_lt_irrefl x)
        · exact h.2
      by_cases hyz : x = z
      · subst hyz
        have h2' : b < c := by
          rcases h2 with h | h
          · exact absurd h (u8_lt_irrefl x)
          · exact h.2
        simp only [if_true]
        have := lcpLen_mid h1' h2'
        omega
      · simp [hyz]
    · have hlt : x < y := by
        rcases h1 with h | h
        · exact h
        · exact absurd h.1 hxy
      have hxz : x ≠ z := by
        rintro rfl
        rcases h2 with h | h
        · exact u8_lt_irrefl _ (u8_lt_trans hlt h)
        · exact hxy h.1.symm
      simp [hxy, hxz]

/-! ## Texts with a sentinel -/

theorem Sentinel.len_pos {t : List UInt8} (h : Sentinel t) : 0 < t.length := by
  obtain ⟨u, rfl, -⟩ := h; simp

theorem Sentinel.last {t : List UInt8} (h : Sentinel t) : t[t.length - 1]? = some 0 := by
  obtain ⟨u, rfl, -⟩ := h; simp

theorem Sentinel.ne_zero {t : List UInt8} (h : Sentinel t) {i : Nat} (hi : i + 1 < t.length) : t[i]? ≠ some 0 := by
  obtain ⟨u, rfl, hu⟩ := h
  simp only [List.length_append, List.length_singleton] at hi
  rw [List.getElem?_append_left (by omega)]
  intro he
  exact hu (List.mem_of_getElem? he)

/-- Two different suffixes differ inside the text. -/
theorem Sentinel.lcp_lt {t : List UInt8} (h : Sentinel t) {i j : Nat} (hi : i < t.length) (hj : j < t.length) (hij : i ≠ j) :
    i + lcpLen (t.drop i) (t.drop j) < t.length ∧ j + lcpLen (t.drop i) (t.drop j) < t.length ∧
      t[i + lcpLen (t.drop i) (t.drop j)]? ≠ t[j + lcpLen (t.drop i) (t.drop j)]? := by
  have key : ∀ i j, i < t.length → j < t.length → i < j → j + lcpLen (t.drop i) (t.drop j) < t.length := by
    intro i j hi hj hij
    by_contra hc
    have h1 := lcpLen_get (t.drop i) (t.drop j) (t.length - 1 - j) (by omega)
    have h2 := h1.1
    rw [List.getElem?_drop, List.getElem?_drop, show j + (t.length - 1 - j) = t.length - 1 by omega, h.last] at h2
    exact h.ne_zero (by omega) h2
  have h1 : i + lcpLen (t.drop i) (t.drop j) < t.length ∧ j + lcpLen (t.drop i) (t.drop j) < t.length := by
    rcases Nat.lt_or_gt_of_ne hij with hlt | hlt
    · have := key i j hi hj hlt; omega
    · have := key j i hj hi hlt
      rw [lcpLen_comm] at this
      omega
  refine ⟨h1.1, h1.2, ?_⟩
  have := lcpLen_stop (t.drop i) (t.drop j) (by simp; omega)
  rwa [List.getElem?_drop, List.getElem?_drop] at this

/-! ## Suffix arrays -/

namespace IsSA
variable {t : List UInt8} {sa : List Nat}

theorem nodup (h : IsSA t sa) : sa.Nodup := by
  rw [List.Nodup, List.pairwise_iff_getElem]
  intro i j hi hj hij he
  refine lex_irrefl _ (h.sorted i j _ _ hij (List.getElem?_eq_getElem hi) ?_)
  rw [he]; exact List.getElem?_eq_getElem hj

theorem perm (h : IsSA t sa) : sa.Perm (List.range t.length) := by
  refine List.Subperm.perm_of_length_le (List.subperm_of_subset h.nodup ?_) (by simp [h.length])
  intro s hs
  exact List.mem_range.mpr (h.lt s hs)

theorem idx (h : IsSA t sa) {p : Nat} (hp : p < t.length) : ∃ k, k < t.length ∧ sa[k]? = some p := by
  have : p ∈ sa := h.perm.mem_iff.mpr (List.mem_range.mpr hp)
  obtain ⟨k, hk, he⟩ := List.mem_iff_getElem.mp this
  exact ⟨k, by rw [← h.length]; exact hk, by rw [List.getElem?_eq_getElem hk, he]⟩

theorem get (h : IsSA t sa) {k : Nat} (hk : k < t.length) : ∃ s, sa[k]? = some s ∧ s < t.length := by
  have hk' : k < sa.length := by rw [h.length]; exact hk
  exact ⟨sa[k], List.getElem?_eq_getElem hk', h.lt _ (List.getElem_mem hk')⟩

theorem inj (h : IsSA t sa) {i j s : Nat} (hi : sa[i]? = some s) (hj : sa[j]? = some s) : i = j := by
  rcases Nat.lt_trichotomy i j with hlt | he | hlt
  · exact absurd (h.sorted i j s s hlt hi hj) (lex_irrefl _)
  · exact he
  · exact absurd (h.sorted j i s s hlt hj hi) (lex_irrefl _)

/-- positions are ordered like the suffixes -/
theorem lt_iff (h : IsSA t sa) {i j s u : Nat} (hi : sa[i]? = some s) (hj : sa[j]? = some u) : i < j ↔ t.drop s < t.drop u := by
  constructor
  · intro hlt; exact h.sorted i j s u hlt hi hj
  · intro hlt
    rcases Nat.lt_trichotomy i j with h' | rfl | h'
    · exact h'
    · rw [hi] at hj; cases hj; exact absurd hlt (lex_irrefl _)
    · exact absurd (lex_trans hlt (h.sorted j i u s h' hj hi)) (lex_irrefl _)

/-- the smallest suffix is the sentinel -/
theorem zero (h : IsSA t sa) (hs : Sentinel t) : sa[0]? = some (t.length - 1) := by
  have hn := hs.len_pos
  obtain ⟨k, hk, he⟩ := h.idx (p := t.length - 1) (by omega)
  obtain ⟨s, h0, hslt⟩ := h.get (k := 0) hn
  by_cases hk0 : k = 0
  · subst hk0; exact he
  · exfalso
    have hlt := h.sorted 0 k s (t.length - 1) (by omega) h0 he
    have hne : s ≠ t.length - 1 := by
      rintro rfl
      have := h.inj h0 he
      omega
    have hl0 := hs.last
    have hd : t.drop (t.length - 1) = [0] := by
      rw [List.drop_eq_getElem_cons (by omega), List.drop_eq_nil_of_le (by omega)]
      rw [List.getElem?_eq_getElem (by omega)] at hl0
      simpa using hl0
    rw [hd, List.drop_eq_getElem_cons hslt, List.cons_lt_cons_iff] at hlt
    rcases hlt with h1 | ⟨h1, h2⟩
    · rw [UInt8.lt_iff_toNat_lt] at h1
      simp at h1
    · exact List.not_lt_nil _ h2

end IsSA

end Tdc
