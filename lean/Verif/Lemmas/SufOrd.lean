import Mathlib.Data.Finset.Card
import Mathlib.Data.Fintype.EquivFin
import Mathlib.Data.Finset.Range
import Mathlib.Tactic.SplitIfs
import Mathlib.Tactic.ByContra
import Verif.Lemmas.Suffix

/-!
# Ranks of suffixes, types A and B

Facts on the order of the suffixes of a text, in terms of positions: `n` is the length, `ch` gives the characters, `lt i j` says that the
suffix at `i` is smaller than the suffix at `j`, where position `n` stands for the empty suffix.
-/

namespace Tdc.DSS

structure SufOrd (n : Nat) (ch : Nat → Nat) (lt : Nat → Nat → Prop) : Prop where
  irr : ∀ i, ¬ lt i i
  trans : ∀ i j k, lt i j → lt j k → lt i k
  tot : ∀ i j, i ≤ n → j ≤ n → lt i j ∨ i = j ∨ lt j i
  last : ∀ i, i < n → lt n i
  step : ∀ i j, i < n → j < n → (lt i j ↔ ch i < ch j ∨ ch i = ch j ∧ lt (i + 1) (j + 1))

open Classical in
/-- number of positions with a property -/
noncomputable def cnt (n : Nat) (P : Nat → Prop) : Nat := ((Finset.range n).filter P).card

section
variable {n : Nat}

theorem cnt_congr {P Q : Nat → Prop} (h : ∀ j, j < n → (P j ↔ Q j)) : cnt n P = cnt n Q := by
  classical
  unfold cnt
  congr 1
  refine Finset.filter_congr ?_
  intro x hx
  exact h x (Finset.mem_range.mp hx)

theorem cnt_split {P Q R : Nat → Prop} (h : ∀ j, j < n → (P j ↔ Q j ∨ R j)) (hd : ∀ j, j < n → Q j → R j → False) :
    cnt n P = cnt n Q + cnt n R := by
  classical
  unfold cnt
  rw [← Finset.card_union_of_disjoint]
  · congr 1
    ext x
    simp only [Finset.mem_filter, Finset.mem_range, Finset.mem_union]
    constructor
    · rintro ⟨hx, hp⟩
      rcases (h x hx).mp hp with h1 | h1
      · exact Or.inl ⟨hx, h1⟩
      · exact Or.inr ⟨hx, h1⟩
    · rintro (⟨hx, h1⟩ | ⟨hx, h1⟩)
      · exact ⟨hx, (h x hx).mpr (Or.inl h1)⟩
      · exact ⟨hx, (h x hx).mpr (Or.inr h1)⟩
  · rw [Finset.disjoint_left]
    intro x h1 h2
    simp only [Finset.mem_filter, Finset.mem_range] at h1 h2
    exact hd x h1.1 h1.2 h2.2

theorem cnt_one {P : Nat → Prop} {a : Nat} (ha : a < n) (h : ∀ j, j < n → (P j ↔ j = a)) : cnt n P = 1 := by
  classical
  unfold cnt
  rw [Finset.card_eq_one]
  refine ⟨a, ?_⟩
  ext x
  simp only [Finset.mem_filter, Finset.mem_range, Finset.mem_singleton]
  constructor
  · rintro ⟨hx, hp⟩; exact (h x hx).mp hp
  · rintro rfl; exact ⟨ha, (h _ ha).mpr rfl⟩

theorem cnt_zero {P : Nat → Prop} (h : ∀ j, j < n → ¬ P j) : cnt n P = 0 := by
  classical
  unfold cnt
  rw [Finset.card_eq_zero, Finset.filter_eq_empty_iff]
  intro x hx
  exact h x (Finset.mem_range.mp hx)

theorem cnt_all {P : Nat → Prop} (h : ∀ j, j < n → P j) : cnt n P = n := by
  classical
  unfold cnt
  rw [Finset.filter_true_of_mem, Finset.card_range]
  intro x hx
  exact h x (Finset.mem_range.mp hx)

theorem cnt_mono {P Q : Nat → Prop} (h : ∀ j, j < n → P j → Q j) : cnt n P ≤ cnt n Q := by
  classical
  unfold cnt
  refine Finset.card_le_card ?_
  intro x hx
  simp only [Finset.mem_filter, Finset.mem_range] at hx ⊢
  exact ⟨hx.1, h x hx.1 hx.2⟩

theorem cnt_le (P : Nat → Prop) : cnt n P ≤ n := by
  rw [← cnt_all (n := n) (P := fun _ => True) (fun _ _ => trivial)]
  rw [cnt_all (fun _ _ => trivial)]
  exact (cnt_mono (Q := fun _ => True) (fun _ _ _ => trivial)).trans (Nat.le_of_eq (cnt_all (fun _ _ => trivial)))

/-- one position more -/
theorem cnt_insert {P Q : Nat → Prop} {a : Nat} (ha : a < n) (hq : ¬ Q a) (h : ∀ j, j < n → (P j ↔ Q j ∨ j = a)) : cnt n P = cnt n Q + 1 := by
  rw [cnt_split h (fun j _ h1 h2 => hq (h2 ▸ h1)), cnt_one (P := fun j => j = a) ha (fun j _ => Iff.rfl)]

theorem cnt_pos {P : Nat → Prop} {a : Nat} (ha : a < n) (hp : P a) : 0 < cnt n P := by
  have := cnt_mono (n := n) (P := fun j => j = a) (Q := P) (fun j _ h => h ▸ hp)
  rw [cnt_one ha (fun j _ => Iff.rfl)] at this
  omega

end

variable {n : Nat} {ch : Nat → Nat} {lt : Nat → Nat → Prop}

/-- the rank of a suffix -/
noncomputable def rk (n : Nat) (lt : Nat → Nat → Prop) (i : Nat) : Nat := cnt n (fun j => lt j i)

/-- type B: smaller than the next suffix -/
def tB (lt : Nat → Nat → Prop) (i : Nat) : Prop := lt i (i + 1)

namespace SufOrd

variable (O : SufOrd n ch lt)
include O

theorem asym {i j : Nat} (h : lt i j) : ¬ lt j i := fun h' => O.irr i (O.trans _ _ _ h h')

theorem compl {i : Nat} (hi : i < n) : rk n lt i + 1 + cnt n (fun j => lt i j) = n := by
  have h1 := cnt_all (n := n) (P := fun _ => True) (fun _ _ => trivial)
  have h2 := cnt_split (n := n) (P := fun _ => True) (Q := fun j => lt j i ∨ j = i) (R := fun j => lt i j)
    (fun j hj => ⟨fun _ => by
      rcases O.tot j i (by omega) (by omega) with h | h | h
      · exact Or.inl (Or.inl h)
      · exact Or.inl (Or.inr h)
      · exact Or.inr h, fun _ => trivial⟩)
    (fun j _ h1 h2 => by
      rcases h1 with h1 | rfl
      · exact O.asym h1 h2
      · exact O.irr _ h2)
  have h3 := cnt_insert (n := n) (P := fun j => lt j i ∨ j = i) (Q := fun j => lt j i) hi (O.irr i) (fun j _ => Iff.rfl)
  unfold rk
  omega

theorem rk_lt {i : Nat} (hi : i < n) : rk n lt i < n := by
  have := O.compl hi
  omega

theorem rk_mono {i j : Nat} (hi : i < n) (h : lt i j) : rk n lt i < rk n lt j := by
  have h1 := cnt_insert (n := n) (P := fun k => lt k i ∨ k = i) (Q := fun k => lt k i) hi (O.irr i) (fun k _ => Iff.rfl)
  have h2 := cnt_mono (n := n) (P := fun k => lt k i ∨ k = i) (Q := fun k => lt k j) (fun k _ hk => by
    rcases hk with hk | rfl
    · exact O.trans _ _ _ hk h
    · exact h)
  unfold rk
  omega

theorem rk_iff {i j : Nat} (hi : i < n) (hj : j < n) : rk n lt i < rk n lt j ↔ lt i j := by
  constructor
  · intro h
    rcases O.tot i j (by omega) (by omega) with h1 | rfl | h1
    · exact h1
    · omega
    · have := O.rk_mono hj h1; omega
  · exact O.rk_mono hi

theorem rk_inj {i j : Nat} (hi : i < n) (hj : j < n) (h : rk n lt i = rk n lt j) : i = j := by
  rcases O.tot i j (by omega) (by omega) with h1 | h1 | h1
  · have := O.rk_mono hi h1; omega
  · exact h1
  · have := O.rk_mono hj h1; omega

theorem rk_surj {p : Nat} (hp : p < n) : ∃ i, i < n ∧ rk n lt i = p := by
  have hinj : Function.Injective (fun i : Fin n => (⟨rk n lt i.1, O.rk_lt i.2⟩ : Fin n)) := by
    intro a b h
    simp only [Fin.mk.injEq] at h
    exact Fin.ext (O.rk_inj a.2 b.2 h)
  obtain ⟨i, hi⟩ := (Finite.injective_iff_surjective.mp hinj) ⟨p, hp⟩
  exact ⟨i.1, i.2, by simpa using hi⟩

/-! ### Types -/

theorem not_tB_last {i : Nat} (hi : i + 1 = n) : ¬ tB lt i := by
  intro h
  unfold tB at h
  rw [hi] at h
  exact O.asym h (O.last i (by omega))

theorem tB_lt {i : Nat} (hi : i < n) (h : tB lt i) : i + 1 < n := by
  rcases Nat.lt_or_ge (i + 1) n with h1 | h1
  · exact h1
  · exact absurd h (O.not_tB_last (by omega))

theorem tB_step {i : Nat} (hi : i + 1 < n) : tB lt i ↔ ch i < ch (i + 1) ∨ ch i = ch (i + 1) ∧ tB lt (i + 1) :=
  O.step i (i + 1) (by omega) hi

/-- The predecessor of a suffix of type B. -/
theorem pred_B {s : Nat} (hs : s + 1 < n) (h : tB lt (s + 1)) : tB lt s ↔ ch s ≤ ch (s + 1) := by
  rw [O.tB_step hs]
  constructor
  · rintro (h1 | ⟨h1, -⟩) <;> omega
  · intro h1
    rcases Nat.lt_or_ge (ch s) (ch (s + 1)) with h2 | h2
    · exact Or.inl h2
    · exact Or.inr ⟨by omega, h⟩

/-- The predecessor of a suffix of type A. -/
theorem pred_A {s : Nat} (hs : s + 1 < n) (h : ¬ tB lt (s + 1)) : tB lt s ↔ ch s < ch (s + 1) := by
  rw [O.tB_step hs]
  constructor
  · rintro (h1 | ⟨-, h1⟩)
    · exact h1
    · exact absurd h1 h
  · exact Or.inl

theorem tA_lt {i : Nat} (hi : i < n) (h : ¬ tB lt i) : lt (i + 1) i := by
  rcases O.tot i (i + 1) (by omega) (by omega) with h1 | h1 | h1
  · exact absurd h1 h
  · omega
  · exact h1

theorem le_ch {i j : Nat} (hi : i < n) (hj : j < n) (h : lt i j) : ch i ≤ ch j := by
  rcases (O.step i j hi hj).mp h with h1 | ⟨h1, -⟩ <;> omega

/-- Among the suffixes with the same first character those of type A come first. -/
theorem A_lt_B : ∀ (d i j : Nat), n - i ≤ d → i < n → j < n → ch i = ch j → ¬ tB lt i → tB lt j → lt i j := by
  intro d
  induction d with
  | zero => intro i j h hi; omega
  | succ d ih =>
    intro i j hd hi hj hc hA hB
    rcases O.tot i j (by omega) (by omega) with h1 | rfl | h1
    · exact h1
    · exact absurd hB hA
    exfalso
    have hj1 := O.tB_lt hj hB
    have h2 : lt (j + 1) (i + 1) := by
      rcases (O.step j i hj hi).mp h1 with h2 | ⟨-, h2⟩
      · omega
      · exact h2
    have hi1 : i + 1 < n := by
      rcases Nat.lt_or_ge (i + 1) n with h3 | h3
      · exact h3
      · have : i + 1 = n := by omega
        rw [this] at h2
        exact absurd h2 (O.asym (O.last _ hj1))
    have h3 := O.tA_lt hi hA
    have e1 := O.le_ch hj hj1 hB
    have e2 := O.le_ch hj1 hi1 h2
    have e3 := O.le_ch hi1 hi h3
    have hA' : ¬ tB lt (i + 1) := fun h => hA ((O.pred_B hi1 h).mpr (by omega))
    have hB' : tB lt (j + 1) := by
      rcases (O.tB_step hj1).mp hB with h | ⟨-, h⟩
      · omega
      · exact h
    exact O.asym h2 (ih (i + 1) (j + 1) (by omega) hi1 hj1 (by omega) hA' hB')

end SufOrd

/-! ### Buckets -/

/-- start of the bucket of a character -/
noncomputable def sA (n : Nat) (ch : Nat → Nat) (c : Nat) : Nat := cnt n (fun j => ch j < c)

/-- last position of the bucket of two characters -/
noncomputable def eB (n : Nat) (ch : Nat → Nat) (c0 c1 : Nat) : Int :=
  (sA n ch (c0 + 1) : Int) - 1 - cnt n (fun j => ch j = c0 ∧ j + 1 < n ∧ c1 < ch (j + 1))

/-- number of suffixes of type B with a first character -/
noncomputable def nB (n : Nat) (ch : Nat → Nat) (lt : Nat → Nat → Prop) (c : Nat) : Nat := cnt n (fun j => ch j = c ∧ tB lt j)

theorem sA_succ (n : Nat) (ch : Nat → Nat) (c : Nat) : sA n ch (c + 1) = sA n ch c + cnt n (fun j => ch j = c) :=
  cnt_split (fun j _ => by omega) (fun j _ h1 h2 => by omega)

theorem nB_le (n : Nat) (ch : Nat → Nat) (lt : Nat → Nat → Prop) (c : Nat) :
    cnt n (fun j => ch j = c) = cnt n (fun j => ch j = c ∧ ¬ tB lt j) + nB n ch lt c :=
  cnt_split (fun j _ => by
    by_cases h : tB lt j <;> simp [h]) (fun j _ h1 h2 => h1.2 h2.2)

theorem sA_mono (n : Nat) (ch : Nat → Nat) {c d : Nat} (h : c ≤ d) : sA n ch c ≤ sA n ch d :=
  cnt_mono (fun j _ hj => by omega)

theorem sA_le (n : Nat) (ch : Nat → Nat) (c : Nat) : sA n ch c ≤ n := cnt_le _

namespace SufOrd

variable (O : SufOrd n ch lt)
include O

/-- rank from the left -/
theorem rk_left {i : Nat} (hi : i < n) : rk n lt i = sA n ch (ch i) + cnt n (fun j => ch j = ch i ∧ lt (j + 1) (i + 1)) := by
  unfold rk sA
  refine cnt_split (fun j hj => ?_) (fun j _ h1 h2 => by omega)
  exact O.step j i hj hi

/-- rank from the right -/
theorem rk_right {i : Nat} (hi : i + 1 < n) : (rk n lt i : Int) = eB n ch (ch i) (ch (i + 1)) -
    cnt n (fun j => j + 1 < n ∧ ch j = ch i ∧ ch (j + 1) = ch (i + 1) ∧ lt (i + 1) (j + 1)) := by
  have h0 := O.compl (i := i) (by omega)
  have h1 : cnt n (fun j => lt i j) = cnt n (fun j => ch i < ch j) + cnt n (fun j => ch j = ch i ∧ lt (i + 1) (j + 1)) := by
    refine cnt_split (fun j hj => ?_) (fun j _ h1 h2 => by omega)
    rw [O.step i j (by omega) hj]
    constructor
    · rintro (h | ⟨h, h'⟩)
      · exact Or.inl h
      · exact Or.inr ⟨h.symm, h'⟩
    · rintro (h | ⟨h, h'⟩)
      · exact Or.inl h
      · exact Or.inr ⟨h.symm, h'⟩
  have h2 : cnt n (fun j => ch j = ch i ∧ lt (i + 1) (j + 1)) =
      cnt n (fun j => ch j = ch i ∧ j + 1 < n ∧ ch (i + 1) < ch (j + 1)) +
      cnt n (fun j => j + 1 < n ∧ ch j = ch i ∧ ch (j + 1) = ch (i + 1) ∧ lt (i + 1) (j + 1)) := by
    refine cnt_split (fun j hj => ?_) (fun j _ h1 h2 => by omega)
    constructor
    · rintro ⟨h, h'⟩
      have hj1 : j + 1 < n := by
        rcases Nat.lt_or_ge (j + 1) n with h3 | h3
        · exact h3
        · have : j + 1 = n := by omega
          rw [this] at h'
          exact absurd h' (O.asym (O.last _ hi))
      rcases (O.step (i + 1) (j + 1) hi hj1).mp h' with h3 | ⟨h3, -⟩
      · exact Or.inl ⟨h, hj1, h3⟩
      · exact Or.inr ⟨hj1, h, h3.symm, h'⟩
    · rintro (⟨h, hj1, h3⟩ | ⟨hj1, h, h3, h'⟩)
      · exact ⟨h, (O.step (i + 1) (j + 1) hi hj1).mpr (Or.inl h3)⟩
      · exact ⟨h, h'⟩
  have h3 : n = sA n ch (ch i + 1) + cnt n (fun j => ch i < ch j) := by
    have h := cnt_split (n := n) (P := fun _ => True) (Q := fun j => ch j < ch i + 1) (R := fun j => ch i < ch j)
      (fun j _ => ⟨fun _ => by omega, fun _ => trivial⟩) (fun j _ h1 h2 => by omega)
    rw [cnt_all (n := n) (P := fun _ => True) (fun _ _ => trivial)] at h
    unfold sA; omega
  unfold eB
  omega

theorem rk_bucket {i : Nat} (hi : i < n) : sA n ch (ch i) ≤ rk n lt i ∧ rk n lt i < sA n ch (ch i + 1) := by
  have h1 := O.rk_left hi
  refine ⟨by omega, ?_⟩
  rw [sA_succ, h1]
  have : cnt n (fun j => (ch j = ch i ∧ lt (j + 1) (i + 1)) ∨ j = i) = cnt n (fun j => ch j = ch i ∧ lt (j + 1) (i + 1)) + 1 :=
    cnt_insert hi (fun h => O.irr _ h.2) (fun j _ => Iff.rfl)
  have h2 := cnt_mono (n := n) (P := fun j => (ch j = ch i ∧ lt (j + 1) (i + 1)) ∨ j = i) (Q := fun j => ch j = ch i) (fun j _ h => by
    rcases h with h | rfl
    · exact h.1
    · rfl)
  omega

/-- The suffixes of type B are the last ones of the bucket of their first character. -/
theorem rk_B {i : Nat} (hi : i < n) (c : Nat) : (sA n ch (c + 1) ≤ rk n lt i + nB n ch lt c ∧ rk n lt i < sA n ch (c + 1)) ↔
    ch i = c ∧ tB lt i := by
  constructor
  · rintro ⟨h1, h2⟩
    have hb := O.rk_bucket hi
    have hnb := nB_le n ch lt c
    have hs := sA_succ n ch c
    have hc : ch i = c := by
      rcases Nat.lt_trichotomy (ch i) c with h | h | h
      · have := sA_mono n ch (show ch i + 1 ≤ c by omega)
        omega
      · exact h
      · have := sA_mono n ch (show c + 1 ≤ ch i by omega)
        omega
    refine ⟨hc, ?_⟩
    by_contra hA
    subst hc
    have hl := O.rk_left hi
    have h3 : cnt n (fun j => (ch j = ch i ∧ lt (j + 1) (i + 1)) ∨ j = i) = cnt n (fun j => ch j = ch i ∧ lt (j + 1) (i + 1)) + 1 :=
      cnt_insert hi (fun h => O.irr _ h.2) (fun j _ => Iff.rfl)
    have h4 := cnt_mono (n := n) (P := fun j => (ch j = ch i ∧ lt (j + 1) (i + 1)) ∨ j = i) (Q := fun j => ch j = ch i ∧ ¬ tB lt j)
      (fun j hj h => by
        rcases h with h | rfl
        · refine ⟨h.1, fun hB => ?_⟩
          have h5 := O.A_lt_B n i j (by omega) hi hj h.1.symm hA hB
          have h6 := (O.step j i hj hi).mpr (Or.inr h)
          exact O.asym h5 h6
        · exact ⟨rfl, hA⟩)
    omega
  · rintro ⟨rfl, hB⟩
    have hb := O.rk_bucket hi
    refine ⟨?_, hb.2⟩
    have hnb := nB_le n ch lt (ch i)
    have hs := sA_succ n ch (ch i)
    have hl := O.rk_left hi
    have h4 := cnt_mono (n := n) (P := fun j => ch j = ch i ∧ ¬ tB lt j) (Q := fun j => ch j = ch i ∧ lt (j + 1) (i + 1))
      (fun j hj h => by
        refine ⟨h.1, ?_⟩
        have h5 := O.A_lt_B n j i (by omega) hj hi h.1 h.2 hB
        rcases (O.step j i hj hi).mp h5 with h6 | h6
        · omega
        · exact h6.2)
    omega

end SufOrd

end Tdc.DSS
