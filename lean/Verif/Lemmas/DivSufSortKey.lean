import Verif.Lemmas.DivSufSort

/-! # The order of the B* suffixes is given by the substrings between them -/

namespace Tdc.DSS

variable {cell : Int → Int} {n : Nat} {ch : Nat → Nat} {lt : Nat → Nat → Prop}

/-- `st 0 < … < st (m - 1)` are the positions of the B* suffixes. -/
structure Stars (n : Nat) (lt : Nat → Nat → Prop) (m : Nat) (st : Nat → Nat) : Prop where
  lt_n : ∀ x, x < m → st x < n
  star : ∀ x, x < m → star lt (st x)
  all : ∀ p, p < n → DSS.star lt p → ∃ x, x < m ∧ st x = p
  mono : ∀ x y, x < y → y < m → st x < st y

/-- length of the substring -/
def klen (n m : Nat) (st : Nat → Nat) (x : Nat) : Nat := if x + 1 < m then st (x + 1) + 2 - st x else n - st x

theorem SufOrd.lcp_step (O : SufOrd n ch lt) {s t : Nat} : ∀ (p : Nat), (∀ q, q < p → ch (s + q) = ch (t + q)) → s + p ≤ n → t + p ≤ n →
    (lt s t ↔ lt (s + p) (t + p))
  | 0, _, _, _ => Iff.rfl
  | p + 1, h, hs, ht => by
    rw [SufOrd.lcp_step O p (fun q hq => h q (by omega)) (by omega) (by omega), O.step _ _ (by omega) (by omega)]
    have := h p (by omega)
    constructor
    · rintro (h1 | h1)
      · omega
      · exact h1.2
    · exact fun h1 => Or.inr ⟨this, h1⟩

namespace Stars

variable {m : Nat} {st : Nat → Nat} (S : Stars n lt m st)
include S

theorem not_star {x p : Nat} (hx : x < m) (h1 : st x < p) (h2 : x + 1 < m → p < st (x + 1)) : p < n → ¬ DSS.star lt p := by
  intro hp hs
  obtain ⟨y, hy, rfl⟩ := S.all p hp hs
  rcases Nat.lt_trichotomy y x with h | h | h
  · have := S.mono y x h hx; omega
  · subst h; omega
  · have hxm : x + 1 < m := by omega
    have := h2 hxm
    rcases Nat.lt_or_eq_of_le (show x + 1 ≤ y from h) with h' | h'
    · have := S.mono (x + 1) y h' hy; omega
    · subst h'; omega

/-- two positions lie between two B* suffixes at least -/
theorem gap {x : Nat} (hx : x + 1 < m) : st x + 2 ≤ st (x + 1) := by
  have h1 := S.mono x (x + 1) (by omega) hx
  have h2 := (S.star x (by omega)).2
  have h3 := (S.star (x + 1) hx).1
  by_contra hc
  have : st (x + 1) = st x + 1 := by omega
  rw [this] at h3
  exact h2 h3

theorem next (O : SufOrd n ch lt) {x : Nat} (hx : x < m) : st x + 1 < n ∧ ch (st x) < ch (st x + 1) := by
  have h := S.star x hx
  have h1 := O.tB_lt (S.lt_n x hx) h.1
  exact ⟨h1, (O.pred_A h1 h.2).mp h.1⟩

omit S in
/-- Mismatch: the substrings decide. -/
theorem lt_of_mismatch (O : SufOrd n ch lt) {x y : Nat} (i : Nat) (hi : st x + i < n) (hj : st y + i < n)
    (he : ∀ q, q < i → ch (st x + q) = ch (st y + q)) (hlt : ch (st x + i) < ch (st y + i)) : lt (st x) (st y) := by
  rw [O.lcp_step i he (by omega) (by omega), O.step _ _ hi hj]
  exact Or.inl hlt

theorem end_le (O : SufOrd n ch lt) {x : Nat} (hx : x < m) : st x + klen n m st x ≤ n := by
  have h1 := S.lt_n x hx
  unfold klen
  split
  · rename_i h
    have h2 := S.gap h
    have h3 := S.next O h
    omega
  · omega

/-- A substring which is a proper prefix of the other one belongs to the smaller suffix. -/
theorem lt_of_prefix (O : SufOrd n ch lt) {x y : Nat} (hx : x < m) (hy : y < m) (hl : klen n m st x < klen n m st y)
    (he : ∀ q, q < klen n m st x → ch (st x + q) = ch (st y + q)) : lt (st x) (st y) := by
  have hy1 := S.end_le O hy
  by_cases hx1 : x + 1 < m
  · have hk : klen n m st x = st (x + 1) + 2 - st x := by unfold klen; rw [if_pos hx1]
    have hg := S.gap hx1
    obtain ⟨hn, hc⟩ := S.next O hx1
    obtain ⟨p, hp⟩ : ∃ p, st (x + 1) = st x + p := ⟨st (x + 1) - st x, by omega⟩
    have hkp : klen n m st x = p + 2 := by omega
    rw [hkp] at he hl
    rw [hp] at hn hc
    rw [O.lcp_step (p + 1) (fun q hq => he q (by omega)) (by omega) (by omega)]
    have e0 := he p (by omega)
    have e1 := he (p + 1) (by omega)
    have hsx := (S.star (x + 1) hx1).2
    rw [hp] at hsx
    have hb : tB lt (st y + p) := by
      rw [O.tB_step (by omega)]
      left
      have h1 : ch (st x + p + 1) = ch (st x + (p + 1)) := rfl
      have h2 : ch (st y + p + 1) = ch (st y + (p + 1)) := rfl
      omega
    have hns : ¬ DSS.star lt (st y + p) := by
      refine S.not_star hy (by omega) (fun h => ?_) (by omega)
      unfold klen at hl
      rw [if_pos h] at hl
      omega
    have hb1 : tB lt (st y + p + 1) := by
      by_contra hcon
      exact hns ⟨hb, hcon⟩
    exact O.A_lt_B _ _ _ (Nat.le_refl _) (by omega) (by omega) e1 hsx hb1
  · have hk : klen n m st x = n - st x := by unfold klen; rw [if_neg hx1]
    have h1 := S.lt_n x hx
    rw [O.lcp_step _ he (by omega) (by omega)]
    have : st x + klen n m st x = n := by omega
    rw [this]
    exact O.last _ (by omega)

/-- The substring of the last B* suffix is different from all others. -/
theorem last_ne (O : SufOrd n ch lt) {x y : Nat} (hx : x + 1 = m) (hy : y + 1 < m) (hl : klen n m st x = klen n m st y)
    (he : ∀ q, q < klen n m st x → ch (st x + q) = ch (st y + q)) : False := by
  have hg := S.gap hy
  obtain ⟨hn, hc⟩ := S.next O hy
  obtain ⟨p, hp⟩ : ∃ p, st (y + 1) = st y + p := ⟨st (y + 1) - st y, by omega⟩
  have hky : klen n m st y = p + 2 := by unfold klen; rw [if_pos hy]; omega
  have hkx : klen n m st x = n - st x := by unfold klen; rw [if_neg (by omega)]
  have h1 := S.lt_n x (by omega)
  rw [hl, hky] at he
  have e0 := he p (by omega)
  have e1 := he (p + 1) (by omega)
  rw [hp] at hn hc
  have hlast : st x + p + 1 + 1 = n := by omega
  have hb : tB lt (st x + p) := by
    rw [O.tB_step (by omega)]
    left
    have h1 : ch (st x + p + 1) = ch (st x + (p + 1)) := rfl
    have h2 : ch (st y + p + 1) = ch (st y + (p + 1)) := rfl
    omega
  exact S.not_star (x := x) (by omega) (p := st x + p) (by omega) (fun h => by omega) (by omega) ⟨hb, O.not_tB_last hlast⟩

/-- Equal substrings: the following B* suffixes decide. -/
theorem lt_of_equal (O : SufOrd n ch lt) {x y : Nat} (hx : x < m) (hy : y < m) (hne : x ≠ y) (hl : klen n m st x = klen n m st y)
    (he : ∀ q, q < klen n m st x → ch (st x + q) = ch (st y + q)) :
    x + 1 < m ∧ y + 1 < m ∧ (lt (st x) (st y) ↔ lt (st (x + 1)) (st (y + 1))) := by
  by_cases hx1 : x + 1 < m
  · by_cases hy1 : y + 1 < m
    · refine ⟨hx1, hy1, ?_⟩
      have hgx := S.gap hx1
      have hgy := S.gap hy1
      have hkx : klen n m st x = st (x + 1) + 2 - st x := by unfold klen; rw [if_pos hx1]
      have hky : klen n m st y = st (y + 1) + 2 - st y := by unfold klen; rw [if_pos hy1]
      have h1 := S.lt_n (x + 1) hx1
      have h2 := S.lt_n (y + 1) hy1
      have ex : st x + (st (x + 1) - st x) = st (x + 1) := by omega
      have ey : st y + (st (x + 1) - st x) = st (y + 1) := by omega
      rw [O.lcp_step (st (x + 1) - st x) (fun q hq => he q (by omega)) (by omega) (by omega), ex, ey]
    · exact (S.last_ne O (x := y) (y := x) (by omega) hx1 hl.symm (fun q hq => (he q (by omega)).symm)).elim
  · by_cases hy1 : y + 1 < m
    · exact (S.last_ne O (x := x) (y := y) (by omega) hy1 hl he).elim
    · exact absurd (show x = y by omega) hne

end Stars

end Tdc.DSS
