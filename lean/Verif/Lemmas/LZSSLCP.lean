import Verif.Model.LZSSLCP
import Verif.Lemmas.LZSSCoding
import Verif.Lemmas.TextDS
import Verif.Spec.Factors

namespace Tdc

/-- what `lzss_lcp` needs from the arrays -/
structure ArraysOk (t : List UInt8) (A : TextArrays) : Prop where
  isSA : IsSA t A.sa
  isa : ∀ k s : Nat, A.sa[k]? = some s → A.isa[s]? = some k
  lcpLength : A.lcp.length = t.length
  lcp0 : A.lcp[0]? = some 0
  lcp : ∀ k i j : Nat, A.sa[k + 1]? = some i → A.sa[k]? = some j → A.lcp[k + 1]? = some (lcpLen (t.drop i) (t.drop j))

theorem le_foldl_max (l : List Nat) : ∀ a, a ≤ l.foldl max a ∧ ∀ v ∈ l, v ≤ l.foldl max a := by
  induction l with
  | nil => intro a; simp
  | cons x l ih =>
    intro a
    simp only [List.foldl_cons]
    obtain ⟨h1, h2⟩ := ih (max a x)
    refine ⟨by omega, ?_⟩
    intro v hv
    rcases List.mem_cons.mp hv with rfl | hv
    · omega
    · exact h2 v hv

theorem foldl_max_mem (l : List Nat) : ∀ a, l.foldl max a = a ∨ l.foldl max a ∈ l := by
  induction l with
  | nil => intro a; simp
  | cons x l ih =>
    intro a
    simp only [List.foldl_cons, List.mem_cons]
    rcases ih (max a x) with h | h
    · rw [h]; rcases Nat.le_total a x with h' | h'
      · right; left; omega
      · left; omega
    · exact Or.inr (Or.inr h)

theorem le_lpf {t : List UInt8} {i j : Nat} (h : j < i) : lcpLen (t.drop j) (t.drop i) ≤ lpf t i :=
  (le_foldl_max _ 0).2 _ (List.mem_map.mpr ⟨j, List.mem_range.mpr h, rfl⟩)

theorem lpf_eq {t : List UInt8} {i m : Nat} (h1 : ∀ j, j < i → lcpLen (t.drop j) (t.drop i) ≤ m)
    (h2 : 0 < m → ∃ j, j < i ∧ lcpLen (t.drop j) (t.drop i) = m) : lpf t i = m := by
  refine Nat.le_antisymm ?_ ?_
  · rcases foldl_max_mem ((List.range i).map fun j => lcpLen (t.drop j) (t.drop i)) 0 with h | h
    · unfold lpf; omega
    · obtain ⟨j, hj, he⟩ := List.mem_map.mp h
      unfold lpf; rw [← he]; exact h1 j (List.mem_range.mp hj)
  · rcases Nat.eq_zero_or_pos m with rfl | hm
    · omega
    · obtain ⟨j, hj, he⟩ := h2 hm
      rw [← he]; exact le_lpf hj

section
variable {t : List UInt8} {A : TextArrays} (hA : ArraysOk t A)
include hA

theorem psvLoop_spec {i cur : Nat} (hcur : A.sa[cur]? = some i) : ∀ p l : Nat, p ≤ cur →
    (∀ s, 0 < p → A.sa[p - 1]? = some s → l = lcpLen (t.drop s) (t.drop i)) → (p = 0 → l = 0) →
    ∃ q l', psvLoop A i p l = .ok (q, l') ∧ (∀ r j : Nat, r < p → A.sa[r]? = some j → j < i → lcpLen (t.drop j) (t.drop i) ≤ l') ∧
      (q = 0 → l' = 0 ∧ ∀ r j : Nat, r < p → A.sa[r]? = some j → i < j) ∧ (∀ p', q = p' + 1 → ∃ s, A.sa[p']? = some s ∧ s < i ∧ l' = lcpLen (t.drop s) (t.drop i)) := by
  intro p
  have hI := hA.isSA
  have hcl : cur < t.length := by
    have := (List.getElem?_eq_some_iff.mp hcur).1
    rw [hI.length] at this
    exact this
  induction p with
  | zero => intro l _ _ h0; exact ⟨0, l, rfl, by intros; omega, fun _ => ⟨h0 rfl, by intros; omega⟩, by intro p' h; omega⟩
  | succ p ih =>
    intro l hp hl _
    obtain ⟨s, hs, hsl⟩ := hI.get (k := p) (by omega)
    have hls : l = lcpLen (t.drop s) (t.drop i) := hl s (by omega) hs
    rw [psvLoop, vget_ok hs]
    simp only
    have hlt_s := hI.sorted p cur s i (by omega) hs hcur
    by_cases hsi : s > i
    · rw [if_pos hsi]
      obtain ⟨x, hx⟩ : ∃ x, A.lcp[p]? = some x := ⟨_, List.getElem?_eq_getElem (by rw [hA.lcpLength]; omega)⟩
      rw [vget_ok hx]
      simp only
      obtain ⟨q, l', h1, h2, h3, h4⟩ := ih (min l x) (by omega) (by
        intro s' hp0 hs'
        obtain ⟨p', rfl⟩ : ∃ p', p = p' + 1 := ⟨p - 1, by omega⟩
        rw [Nat.add_sub_cancel] at hs'
        rw [hA.lcp p' s s' hs hs'] at hx
        cases hx
        have := lcpLen_mid (hI.sorted p' (p' + 1) s' s (by omega) hs' hs) hlt_s
        rw [this, lcpLen_comm (t.drop s) (t.drop s')]
        omega) (by
        rintro rfl
        rw [hA.lcp0] at hx
        cases hx
        omega)
      refine ⟨q, l', h1, ?_, ?_, h4⟩
      · intro r j hr hj hji
        by_cases hrp : r = p
        · subst hrp; rw [hs] at hj; cases hj; omega
        · exact h2 r j (by omega) hj hji
      · intro hq
        obtain ⟨a, b⟩ := h3 hq
        refine ⟨a, ?_⟩
        intro r j hr hj
        by_cases hrp : r = p
        · subst hrp; rw [hs] at hj; cases hj; omega
        · exact b r j (by omega) hj
    · rw [if_neg hsi]
      have hne : s ≠ i := by rintro rfl; have := hI.inj hs hcur; omega
      refine ⟨p + 1, l, rfl, ?_, by intro h; omega, ?_⟩
      · intro r j hr hj hji
        by_cases hrp : r = p
        · subst hrp; rw [hs] at hj; cases hj; omega
        · have := lcpLen_mid (hI.sorted r p j s (by omega) hj hs) hlt_s
          omega
      · intro p' hp'
        obtain rfl : p' = p := by omega
        exact ⟨s, hs, by omega, hls⟩

theorem nsvLoop_spec {i cur : Nat} (hcur : A.sa[cur]? = some i) : ∀ k pos l : Nat, pos + k = t.length → cur < pos →
    (∀ r j : Nat, cur < r → r < pos → A.sa[r]? = some j → i < j) →
    (∀ s x, A.sa[pos]? = some s → A.lcp[pos]? = some x → min l x = lcpLen (t.drop i) (t.drop s)) →
    ∃ o, nsvLoop A i k pos l = .ok o ∧ (o = none → ∀ r j : Nat, cur < r → A.sa[r]? = some j → i < j) ∧
      (∀ np nl, o = some (np, nl) → (∀ r j : Nat, cur < r → A.sa[r]? = some j → j < i → lcpLen (t.drop j) (t.drop i) ≤ nl) ∧
        ∃ s, A.sa[np]? = some s ∧ s < i ∧ nl = lcpLen (t.drop s) (t.drop i)) := by
  intro k
  have hI := hA.isSA
  induction k with
  | zero =>
    intro pos l h1 _ h2 _
    refine ⟨none, rfl, fun _ r j hr hj => h2 r j hr ?_ hj, by simp⟩
    have := (List.getElem?_eq_some_iff.mp hj).1
    rw [hI.length] at this
    omega
  | succ k ih =>
    intro pos l h1 hcp h2 h3
    obtain ⟨s, hs, hsl⟩ := hI.get (k := pos) (by omega)
    obtain ⟨x, hx⟩ : ∃ x, A.lcp[pos]? = some x := ⟨_, List.getElem?_eq_getElem (by rw [hA.lcpLength]; omega)⟩
    rw [nsvLoop, vget_ok hs, vget_ok hx]
    simp only
    have hlt_s := hI.sorted cur pos i s (by omega) hcur hs
    have hm := h3 s x hs hx
    by_cases hsi : s < i
    · rw [if_pos hsi]
      refine ⟨_, rfl, by simp, ?_⟩
      intro np nl he
      simp only [Option.some.injEq, Prod.mk.injEq] at he
      obtain ⟨rfl, rfl⟩ := he
      rw [hm]
      refine ⟨?_, s, hs, hsi, lcpLen_comm _ _⟩
      intro r j hr hj hji
      rcases Nat.lt_trichotomy r pos with h | rfl | h
      · have := h2 r j hr h hj; omega
      · rw [hs] at hj; cases hj; rw [lcpLen_comm]; exact Nat.le_refl _
      · have := lcpLen_mid hlt_s (hI.sorted pos r s j h hs hj)
        rw [lcpLen_comm (t.drop j)]
        omega
    · rw [if_neg hsi]
      have hne : s ≠ i := by rintro rfl; have := hI.inj hs hcur; omega
      refine ih (pos + 1) (min l x) (by omega) (by omega) ?_ ?_
      · intro r j hr hr' hj
        by_cases hrp : r = pos
        · subst hrp; rw [hs] at hj; cases hj; omega
        · exact h2 r j hr (by omega) hj
      · intro s' x' hs' hx'
        rw [hA.lcp pos s' s hs' hs] at hx'
        cases hx'
        rw [hm, lcpLen_mid hlt_s (hI.sorted pos (pos + 1) s s' (by omega) hs hs'), lcpLen_comm (t.drop s) (t.drop s')]

/-- the search finds the longest previous factor -/
theorem lpfSearch_spec (hs : Sentinel t) (hlen : t.length < 2 ^ 32) {i : Nat} (hi : i + 1 < t.length) :
    ∃ pp pl np nl, lpfSearch A t.length i = .ok (pp, pl, np, nl) ∧ max pl nl = lpf t i ∧
      (0 < pl → ∃ s, 0 < pp ∧ A.sa[pp - 1]? = some s ∧ s < i ∧ pl = lcpLen (t.drop s) (t.drop i)) ∧
      (0 < nl → ∃ s, A.sa[np]? = some s ∧ s < i ∧ nl = lcpLen (t.drop s) (t.drop i)) ∧
      (i = 0 → pl = 0 ∧ nl = 0 ∧ (pp = 0 ∨ ∃ s, 0 < pp ∧ A.sa[pp - 1]? = some s)) := by
  have hI := hA.isSA
  obtain ⟨cur, hcl, hcur⟩ := hI.idx (p := i) (by omega)
  have hc0 : 0 < cur := by
    rcases Nat.eq_zero_or_pos cur with rfl | h
    · rw [hI.zero hs] at hcur
      have : t.length - 1 = i := by simpa using hcur
      omega
    · exact h
  obtain ⟨k, rfl⟩ : ∃ k, cur = k + 1 := ⟨cur - 1, by omega⟩
  obtain ⟨j0, hj0, hj0l⟩ := hI.get (k := k) (by omega)
  have hl0 := hA.lcp k i j0 hcur hj0
  obtain ⟨l0, hl0e⟩ : ∃ l0, l0 = lcpLen (t.drop i) (t.drop j0) := ⟨_, rfl⟩
  rw [← hl0e] at hl0
  have hpsv : ∃ pp pl, (if l0 > 0 then psvLoop A i (k + 1) l0 else .ok (k + 1, l0)) = (.ok (pp, pl) : Res (Nat × Nat)) ∧
      (∀ r j : Nat, r < k + 1 → A.sa[r]? = some j → j < i → lcpLen (t.drop j) (t.drop i) ≤ pl) ∧
      (0 < pl → ∃ s, 0 < pp ∧ A.sa[pp - 1]? = some s ∧ s < i ∧ pl = lcpLen (t.drop s) (t.drop i)) ∧
      (i = 0 → pl = 0 ∧ (pp = 0 ∨ ∃ s, 0 < pp ∧ A.sa[pp - 1]? = some s)) := by
    by_cases h0 : l0 > 0
    · rw [if_pos h0]
      obtain ⟨q, l', h1, h2, h3, h4⟩ := psvLoop_spec hA hcur (k + 1) l0 (by omega) (by
        intro s _ hs'
        rw [Nat.add_sub_cancel, hj0] at hs'
        cases hs'
        rw [lcpLen_comm]; exact hl0e) (by omega)
      refine ⟨q, l', h1, h2, ?_, ?_⟩
      · intro hl'
        cases q with
        | zero => have := (h3 rfl).1; omega
        | succ q =>
          obtain ⟨s, a, b, c⟩ := h4 q rfl
          exact ⟨s, by omega, by simpa using a, b, c⟩
      · intro hi0
        cases q with
        | zero => exact ⟨(h3 rfl).1, Or.inl rfl⟩
        | succ q => obtain ⟨s, a, b, c⟩ := h4 q rfl; omega
    · rw [if_neg h0]
      refine ⟨k + 1, l0, rfl, ?_, by intro h; omega, fun _ => ⟨by omega, Or.inr ⟨j0, by omega, by simpa using hj0⟩⟩⟩
      intro r j hr hj hji
      by_cases hrk : r = k
      · subst hrk; rw [hj0] at hj; cases hj; rw [lcpLen_comm]; omega
      · have := lcpLen_mid (hI.sorted r k j j0 (by omega) hj hj0) (hI.sorted k (k + 1) j0 i (by omega) hj0 hcur)
        rw [lcpLen_comm (t.drop j0) (t.drop i)] at this
        omega
  obtain ⟨pp, pl, e1, p2, p3, p4⟩ := hpsv
  obtain ⟨o, n1, n2, n3⟩ := nsvLoop_spec hA hcur (t.length - (k + 1 + 1)) (k + 1 + 1) (2 ^ 63 - 1) (by omega) (by omega)
    (by intros; omega) (by
      intro s x hs' hx
      rw [hA.lcp (k + 1) s i hs' hcur] at hx
      cases hx
      have hsl := hI.lt s (List.mem_of_getElem? hs')
      have hne : s ≠ i := by rintro rfl; have := hI.inj hs' hcur; omega
      have := hs.lcp_lt hsl (show i < t.length by omega) hne
      rw [lcpLen_comm (t.drop i)]
      omega)
  have hfin : ∀ nl, (∀ r j : Nat, k + 1 < r → A.sa[r]? = some j → j < i → lcpLen (t.drop j) (t.drop i) ≤ nl) →
      (0 < nl → ∃ s, s < i ∧ nl = lcpLen (t.drop s) (t.drop i)) → max pl nl = lpf t i := by
    intro nl h1 h2
    symm
    refine lpf_eq ?_ ?_
    · intro j hj
      obtain ⟨r, hr, hre⟩ := hI.idx (p := j) (by omega)
      rcases Nat.lt_trichotomy r (k + 1) with h | rfl | h
      · have := p2 r j h hre hj; omega
      · rw [hcur] at hre; cases hre; omega
      · have := h1 r j h hre hj; omega
    · intro hm
      rcases Nat.le_total pl nl with h | h
      · obtain ⟨s, a, b⟩ := h2 (by omega)
        exact ⟨s, a, by omega⟩
      · obtain ⟨s, -, -, a, b⟩ := p3 (by omega)
        exact ⟨s, a, by omega⟩
  unfold lpfSearch
  rw [vget_ok (hA.isa _ _ hcur)]
  simp only
  rw [vget_ok hl0, vget_ok hcur]
  simp only
  rw [e1]
  simp only
  rw [n1]
  cases o with
  | none =>
    simp only
    refine ⟨pp, pl, t.length, 0, rfl, ?_, p3, by intro h; omega, fun h => ⟨(p4 h).1, rfl, (p4 h).2⟩⟩
    refine hfin 0 ?_ (by omega)
    intro r j hr hj hji
    have := n2 rfl r j hr hj
    omega
  | some q =>
    obtain ⟨np, nl⟩ := q
    simp only
    obtain ⟨a, s, b, c, d⟩ := n3 np nl rfl
    refine ⟨pp, pl, np, nl, rfl, hfin nl a (fun _ => ⟨s, c, d⟩), p3, fun _ => ⟨s, b, c, d⟩, ?_⟩
    intro h; omega

end

theorem lcpFactorLoop_spec {t : List UInt8} {A : TextArrays} (hA : ArraysOk t A) (hs : Sentinel t) (hlen : t.length < 2 ^ 32)
    {threshold : Nat} (hth : 0 < threshold) : ∀ fuel i : Nat, i ≤ t.length → t.length < i + fuel →
    ∃ fs, lcpFactorLoop A t.length threshold fuel i = .ok fs ∧ GreedyLPF t threshold i fs := by
  intro fuel
  induction fuel with
  | zero => intro i h1 h2; omega
  | succ fuel ih =>
    intro i h1 h2
    rw [lcpFactorLoop]
    by_cases hi : i + 1 < t.length
    · rw [if_pos hi]
      obtain ⟨pp, pl, np, nl, e1, e2, e3, e4, -⟩ := lpfSearch_spec hA hs hlen hi
      rw [e1]
      simp only
      rw [e2]
      by_cases hm : lpf t i ≥ threshold
      · rw [if_pos hm]
        have hsrc : ∃ s, (if lpf t i = pl then (if pp = 0 then .error .ub else vget A.sa (pp - 1)) else vget A.sa np) = (.ok s : Res Nat) ∧
            s < i ∧ lpf t i = lcpLen (t.drop s) (t.drop i) := by
          by_cases hpl : lpf t i = pl
          · obtain ⟨s, a, b, c, d⟩ := e3 (by clear e3 e4; omega)
            clear e3 e4
            rw [if_pos hpl, if_neg (by omega), vget_ok b]
            exact ⟨s, rfl, c, by omega⟩
          · obtain ⟨s, b, c, d⟩ := e4 (by clear e3 e4; omega)
            clear e3 e4
            rw [if_neg hpl, vget_ok b]
            exact ⟨s, rfl, c, by omega⟩
        obtain ⟨s, hs1, hs2, hs3⟩ := hsrc
        clear e3 e4
        rw [hs1]
        simp only
        have := hs.lcp_lt (i := s) (j := i) (by omega) (by omega) (by omega)
        obtain ⟨fs, f1, f2⟩ := ih (i + lpf t i) (by omega) (by omega)
        rw [f1]
        exact ⟨_, rfl, ⟨Nat.le_refl _, fun j h1 h2 => absurd h2 (Nat.not_lt.mpr h1)⟩, ⟨hi, hm, rfl⟩, ⟨hs2, hs3⟩, f2⟩
      · rw [if_neg hm]
        obtain ⟨fs, f1, f2⟩ := ih (i + 1) (by omega) (by omega)
        refine ⟨fs, f1, ?_⟩
        cases fs with
        | nil =>
          intro j hj hj'
          by_cases hji : j = i
          · subst hji; omega
          · exact f2 j (by omega) hj'
        | cons f fs =>
          obtain ⟨⟨a, b⟩, c⟩ := f2
          refine ⟨⟨by omega, ?_⟩, c⟩
          intro j hj hj'
          by_cases hji : j = i
          · subst hji; omega
          · exact b j (by omega) hj'
    · rw [if_neg hi]
      exact ⟨[], rfl, by intro j hj hj'; omega⟩

theorem GreedyLPF.ordered {t : List UInt8} {threshold : Nat} (hs : Sentinel t) (fs : List Factor) :
    ∀ p, p ≤ t.length → GreedyLPF t threshold p fs → FactorsOrdered t.length p fs := by
  induction fs with
  | nil => intro p h _; exact h
  | cons f fs ih =>
    intro p h hg
    obtain ⟨⟨a, -⟩, ⟨b, -, -⟩, ⟨c, d⟩, e⟩ := hg
    have := hs.lcp_lt (i := f.src) (j := f.pos) (by omega) (by omega) (by omega)
    exact ⟨a, by omega, by omega, ih _ (by omega) e⟩

theorem GreedyLPF.matches {t : List UInt8} {threshold : Nat} (fs : List Factor) :
    ∀ p, GreedyLPF t threshold p fs → FactorsMatch t fs := by
  induction fs with
  | nil => intro p _ f hf; simp at hf
  | cons f fs ih =>
    intro p hg g hgm
    obtain ⟨-, -, ⟨c, d⟩, e⟩ := hg
    rcases List.mem_cons.mp hgm with rfl | hgm
    · refine ⟨c, fun i hi => ?_⟩
      have := (lcpLen_get _ _ i (by omega : i < lcpLen (t.drop g.src) (t.drop g.pos))).1
      rwa [List.getElem?_drop, List.getElem?_drop] at this
    · exact ih _ e g hgm

theorem ArraysOk.of_textDS (pk : Packs) {t : List UInt8} {sa : List Nat} (h : IsSA t sa) (hs : Sentinel t) (hlen : t.length < 2 ^ 64) :
    ∃ A, textDS pk t sa = .ok A ∧ ArraysOk t A := by
  obtain ⟨_, _, _, A, -, -, e, -, -, -, a, b, c, d, f, g⟩ := textDS_spec pk h hs hlen
  exact ⟨A, e, ⟨a ▸ h, a ▸ g, b, c, a ▸ d⟩⟩

end Tdc
