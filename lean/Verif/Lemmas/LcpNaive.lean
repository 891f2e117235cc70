import Verif.Lemmas.LcpPeaks

namespace Tdc
namespace LC

variable {t : List UInt8} {A : TextArrays} {th : Nat}

/-! ### Marked positions -/

theorem markFrom_spec (n : Nat) : ∀ (p : Nat) (m : List Bool), p + n ≤ m.length →
    ∃ m', markFrom p n m = .ok m' ∧ m'.length = m.length ∧
      ∀ x : Nat, m'[x]? = if p ≤ x ∧ x < p + n then some true else m[x]? := by
  induction n with
  | zero => intro p m _; exact ⟨m, rfl, rfl, fun x => by rw [if_neg (by omega)]⟩
  | succ n ih =>
    intro p m h
    rw [markFrom, vset_ok _ (by omega)]
    simp only
    obtain ⟨m', e, l, g⟩ := ih (p + 1) (m.set p true) (by simp; omega)
    refine ⟨m', e, by simp [l], ?_⟩
    intro x
    rw [g x]
    by_cases hx : x = p
    · subst hx
      rw [if_neg (by omega), if_pos (by omega), set_get_self _ (by omega)]
    · rw [List.getElem?_set_ne (Ne.symm hx)]
      by_cases hc : p + 1 ≤ x ∧ x < p + 1 + n
      · rw [if_pos hc, if_pos (by omega)]
      · rw [if_neg hc, if_neg (by omega)]

theorem naiveFree_spec (m : List Bool) (n : Nat) : ∀ p : Nat, p + n ≤ m.length →
    ∃ b, naiveFree m p n = .ok b ∧ (b = true → ∀ x, p ≤ x → x < p + n → m[x]? = some false) ∧
      (b = false → ∃ x, p ≤ x ∧ x < p + n ∧ m[x]? = some true) := by
  induction n with
  | zero => intro p _; exact ⟨true, rfl, fun _ x h1 h2 => by omega, by intro h; cases h⟩
  | succ n ih =>
    intro p h
    have hg : m[p]? = some (m[p]'(by omega)) := List.getElem?_eq_getElem (by omega)
    rw [naiveFree, vget_ok hg]
    cases hb : m[p]'(by omega) with
    | true =>
      refine ⟨false, rfl, (by intro h; cases h), fun _ => ⟨p, Nat.le_refl _, by omega, by rw [hg, hb]⟩⟩
    | false =>
      obtain ⟨b, e, h1, h2⟩ := ih (p + 1) (by omega)
      refine ⟨b, e, ?_, ?_⟩
      · intro hb' x hx1 hx2
        by_cases hx : x = p
        · rw [hx, hg, hb]
        · exact h1 hb' x (by omega) (by omega)
      · intro hb'
        obtain ⟨x, a1, a2, a3⟩ := h2 hb'
        exact ⟨x, by omega, by omega, a3⟩

/-! ### NaiveStrategy -/

/-- `x` is a character that a factor of `fs` copies -/
def IsSource (fs : List Factor) (x : Nat) : Prop := ∃ f ∈ fs, f.src ≤ x ∧ x < f.src + f.len

theorem naiveLoop_spec (hA : ArraysOk t A) (hs : Sentinel t) (hth : 1 ≤ th) (fuel : Nat) :
    ∀ (i : Nat) (marked : List Bool) (pre : List Factor), i < t.length → t.length < i + fuel → marked.length = t.length →
    (∀ x : Nat, marked[x]? = some true → IsSource pre x) → (∀ x : Nat, marked[x]? = some false → ¬ IsSource pre x) →
    (∀ f ∈ pre, f.pos < i) →
    ∃ fs, naiveLoop A th fuel i marked = .ok fs ∧ FactorsOrdered t.length i fs ∧
      (∀ f ∈ fs, th ≤ f.len ∧ (∃ k, A.sa[k + 1]? = some f.pos ∧ A.sa[k]? = some f.src) ∧ f.len = lcpLen (t.drop f.pos) (t.drop f.src)) ∧
      (∀ f ∈ fs, ∀ x, f.pos ≤ x → x < f.pos + f.len → ¬ IsSource pre x) ∧
      fs.Pairwise (fun g f => ∀ x, f.pos ≤ x → x < f.pos + f.len → ¬ (g.src ≤ x ∧ x < g.src + g.len)) ∧
      ∀ p k j, i ≤ p → A.sa[k + 1]? = some p → A.sa[k]? = some j → th ≤ lcpLen (t.drop p) (t.drop j) → ¬ Covered fs p →
        ∃ g ∈ pre ++ fs, g.pos < p ∧ ∃ x, p ≤ x ∧ x < p + lcpLen (t.drop p) (t.drop j) ∧ g.src ≤ x ∧ x < g.src + g.len := by
  induction fuel with
  | zero => intro i marked pre hi hf; omega
  | succ fuel ih =>
    intro i marked pre hi hf hml hm1 hm2 hpre
    rw [naiveLoop]
    have hsl : A.sa.length = t.length := hA.isSA.length
    by_cases h : i + 1 < A.sa.length
    · rw [if_pos h]
      obtain ⟨k, hk, k1, k2⟩ := ArraysOk.rank hA (p := i) hi
      have hk0 : k ≠ 0 := by
        rintro rfl
        rw [hA.isSA.zero hs] at k2
        have : t.length - 1 = i := by simpa using k2
        omega
      obtain ⟨k, rfl⟩ := Nat.exists_eq_succ_of_ne_zero hk0
      obtain ⟨s, hs1, hs2⟩ := hA.isSA.get (k := k) (by omega)
      have hl := hA.lcp k i s k2 hs1
      rw [vget_ok k1]
      simp only
      rw [vget_ok (show A.lcp[k.succ]? = _ from hl)]
      simp only
      have hbd := pred_bounds hs hA.isSA (f := ⟨i, s, lcpLen (t.drop i) (t.drop s)⟩) ⟨⟨k, k2, hs1⟩, Nat.le_refl _⟩
      simp only at hbd
      have hsne : i ≠ s := by
        rintro rfl
        have := hA.isSA.inj k2 hs1
        omega
      have hlt := (hs.lcp_lt hi hs2 hsne).2.1
      -- a position that is skipped
      have skip : ∀ (hskip : th ≤ lcpLen (t.drop i) (t.drop s) → ∃ x, i ≤ x ∧ x < i + lcpLen (t.drop i) (t.drop s) ∧ marked[x]? = some true),
          ∃ fs, naiveLoop A th fuel (i + 1) marked = .ok fs ∧ FactorsOrdered t.length i fs ∧
          (∀ f ∈ fs, th ≤ f.len ∧ (∃ k, A.sa[k + 1]? = some f.pos ∧ A.sa[k]? = some f.src) ∧ f.len = lcpLen (t.drop f.pos) (t.drop f.src)) ∧
          (∀ f ∈ fs, ∀ x, f.pos ≤ x → x < f.pos + f.len → ¬ IsSource pre x) ∧
          fs.Pairwise (fun g f => ∀ x, f.pos ≤ x → x < f.pos + f.len → ¬ (g.src ≤ x ∧ x < g.src + g.len)) ∧
          ∀ p k j, i ≤ p → A.sa[k + 1]? = some p → A.sa[k]? = some j → th ≤ lcpLen (t.drop p) (t.drop j) → ¬ Covered fs p →
            ∃ g ∈ pre ++ fs, g.pos < p ∧ ∃ x, p ≤ x ∧ x < p + lcpLen (t.drop p) (t.drop j) ∧ g.src ≤ x ∧ x < g.src + g.len := by
        intro hskip
        obtain ⟨fs, e1, e2, e3, e4, e5, e6⟩ := ih (i + 1) marked pre (by omega) (by omega) hml hm1 hm2 (fun f hf => by have := hpre f hf; omega)
        refine ⟨fs, e1, ?_, e3, e4, e5, ?_⟩
        · cases fs with
          | nil => exact Nat.le_of_lt hi
          | cons f fs => exact ⟨by have := e2.1; omega, e2.2⟩
        · intro p k' j hp hk1 hk2 hle hnc
          by_cases hpi : p = i
          · subst hpi
            have hkk : k' + 1 = k + 1 := hA.isSA.inj hk1 k2
            obtain rfl : k' = k := by omega
            obtain rfl : j = s := by rw [hs1] at hk2; exact (Option.some.inj hk2).symm
            obtain ⟨x, x1, x2, x3⟩ := hskip hle
            obtain ⟨g, hg, y1, y2⟩ := hm1 x x3
            exact ⟨g, List.mem_append_left _ hg, hpre g hg, x, x1, x2, y1, y2⟩
          · exact e6 p k' j (by omega) hk1 hk2 hle hnc
      by_cases hth' : lcpLen (t.drop i) (t.drop s) ≥ th
      · rw [if_pos hth']
        obtain ⟨b, eb, b1, b2⟩ := naiveFree_spec marked (lcpLen (t.drop i) (t.drop s)) i (by omega)
        rw [eb]
        cases b with
        | false => exact skip fun _ => b2 rfl
        | true =>
          simp only
          rw [if_neg (by omega), show k.succ - 1 = k from rfl, vget_ok hs1]
          simp only
          obtain ⟨m', em, ml, mg⟩ := markFrom_spec (lcpLen (t.drop i) (t.drop s)) s marked (by omega)
          rw [em]
          simp only
          obtain ⟨fs, e1, e2, e3, e4, e5, e6⟩ := ih (i + lcpLen (t.drop i) (t.drop s)) m' (pre ++ [⟨i, s, lcpLen (t.drop i) (t.drop s)⟩])
            (by omega) (by omega) (by omega)
            (by
              intro x hx
              rw [mg x] at hx
              split at hx
              · rename_i hc
                exact ⟨_, List.mem_append_right _ (List.mem_singleton.mpr rfl), hc⟩
              · obtain ⟨g, hg, y⟩ := hm1 x hx
                exact ⟨g, List.mem_append_left _ hg, y⟩)
            (by
              intro x hx
              rw [mg x] at hx
              split at hx
              · cases hx
              · rename_i hc
                rintro ⟨g, hg, y⟩
                rcases List.mem_append.mp hg with hg | hg
                · exact hm2 x hx ⟨g, hg, y⟩
                · rw [List.mem_singleton] at hg
                  subst hg
                  exact hc y)
            (by
              intro f hf
              rcases List.mem_append.mp hf with hf | hf
              · have := hpre f hf; omega
              · rw [List.mem_singleton] at hf
                subst hf
                simp only
                omega)
          rw [e1]
          refine ⟨_, rfl, ⟨Nat.le_refl _, by simp only; omega, by simp only; omega, e2⟩, ?_, ?_, ?_, ?_⟩
          · intro f hf
            rcases List.mem_cons.mp hf with rfl | hf
            · exact ⟨hth', ⟨k, k2, hs1⟩, rfl⟩
            · exact e3 f hf
          · intro f hf x hx1 hx2
            rcases List.mem_cons.mp hf with rfl | hf
            · exact hm2 x (b1 rfl x hx1 hx2)
            · rintro ⟨g, hg, y⟩
              exact e4 f hf x hx1 hx2 ⟨g, List.mem_append_left _ hg, y⟩
          · rw [List.pairwise_cons]
            refine ⟨?_, e5⟩
            intro f hf x hx1 hx2 hc
            exact e4 f hf x hx1 hx2 ⟨_, List.mem_append_right _ (List.mem_singleton.mpr rfl), hc⟩
          · intro p k' j hp hk1 hk2 hle hnc
            have hge : i + lcpLen (t.drop i) (t.drop s) ≤ p := by
              by_contra hc
              exact hnc ⟨_, List.mem_cons_self, hp, by simp only; omega⟩
            obtain ⟨g, hg, y⟩ := e6 p k' j hge hk1 hk2 hle (fun ⟨g, hg, y⟩ => hnc ⟨g, List.mem_cons_of_mem _ hg, y⟩)
            refine ⟨g, ?_, y⟩
            simpa using hg
      · rw [if_neg hth']
        exact skip fun hc => absurd hc hth'
    · rw [if_neg h]
      refine ⟨[], rfl, Nat.le_of_lt hi, by simp, by simp, List.Pairwise.nil, ?_⟩
      intro p k j hp hk1 hk2 hle hnc
      have := hA.isSA.succ_lt hs hk1
      omega

/-! ### BulldozerStrategy -/

theorem bdLen_spec (m : List Bool) (n q lmax : Nat) : ∀ (fuel l : Nat), 1 ≤ l → l ≤ lmax → (∀ k, k < l → m[q + k]? = some false) →
    1 ≤ bdLen m n q lmax fuel l ∧ bdLen m n q lmax fuel l ≤ lmax ∧ ∀ k, k < bdLen m n q lmax fuel l → m[q + k]? = some false := by
  intro fuel
  induction fuel with
  | zero => intro l h1 h2 h3; exact ⟨h1, h2, h3⟩
  | succ fuel ih =>
    intro l h1 h2 h3
    rw [bdLen]
    split
    · rename_i hc
      refine ih (l + 1) (by omega) (by omega) ?_
      intro k hk
      by_cases hkl : k = l
      · rw [hkl]; exact hc.2.2
      · exact h3 k (by omega)
    · exact ⟨h1, h2, h3⟩

/-- what a triple of `bdInduce` says -/
structure IvOk (t : List UInt8) (x : Interval) : Prop where
  pos : 1 ≤ x.l
  ne : x.p ≠ x.q
  pb : x.p + x.l ≤ t.length
  qb : x.q + x.l ≤ t.length
  eq : ∀ k, k < x.l → t[x.q + k]? = t[x.p + k]?

/-- The loop over sorted intervals. All sources are unmarked when they are chosen, all replaced characters are marked. -/
theorem bdProcess_spec : ∀ (xs : List Interval) (bound lo : Nat) (marked : List Bool), marked.length = t.length →
    (∀ x ∈ xs, IvOk t x) → xs.Pairwise (fun a b => a.p ≤ b.p) → (bound = lo ∨ ∀ x ∈ xs, lo ≤ x.p) → lo ≤ t.length →
    ∃ fs, bdProcess t.length th xs bound marked = .ok fs ∧ FactorsOrdered t.length lo fs ∧
      (∀ f ∈ fs, th ≤ f.len ∧ ∀ k, k < f.len → marked[f.src + k]? = some false ∧ t[f.src + k]? = t[f.pos + k]?) ∧
      ∃ (rank : Nat → Nat) (M : Nat), (∀ x, rank x ≤ M) ∧ ∀ f ∈ fs, ∀ k, k < f.len → rank (f.src + k) < rank (f.pos + k) := by
  intro xs
  induction xs with
  | nil => intro bound lo marked _ _ _ _ hlo; exact ⟨[], rfl, hlo, by simp, fun _ => 0, 0, by simp, by simp⟩
  | cons x xs ih =>
    intro bound lo marked hml hok hsort hb hlo
    rw [List.pairwise_cons] at hsort
    have hok' : ∀ y ∈ xs, IvOk t y := fun y hy => hok y (List.mem_cons_of_mem _ hy)
    rw [bdProcess]
    by_cases hc : x.p < bound
    · rw [if_pos hc]
      refine ih bound lo marked hml hok' hsort.2 ?_ hlo
      rcases hb with hb | hb
      · exact Or.inl hb
      · exact Or.inr fun y hy => hb y (List.mem_cons_of_mem _ hy)
    · rw [if_neg hc]
      have hlx : lo ≤ x.p := by
        rcases hb with hb | hb
        · omega
        · exact hb x List.mem_cons_self
      have hall : ∀ y ∈ xs, lo ≤ y.p := fun y hy => Nat.le_trans hlx (hsort.1 y hy)
      have hx := hok x List.mem_cons_self
      have hxp := hx.pos
      have hxq := hx.qb
      have hxpb := hx.pb
      have hqg : marked[x.q]? = some (marked[x.q]'(by omega)) := List.getElem?_eq_getElem (by omega)
      rw [vget_ok hqg]
      cases hv : marked[x.q]'(by omega) with
      | true => exact ih 0 lo marked hml hok' hsort.2 (Or.inr hall) hlo
      | false =>
        simp only
        obtain ⟨l1, l2, l3⟩ := bdLen_spec marked t.length x.q x.l x.l 1 (Nat.le_refl _) hxp (by
          intro k hk
          obtain rfl : k = 0 := by omega
          rw [Nat.add_zero, hqg, hv])
        generalize bdLen marked t.length x.q x.l x.l 1 = l at *
        by_cases hl : l ≥ th
        · rw [if_pos hl]
          obtain ⟨m', em, ml, mg⟩ := markFrom_spec l x.p marked (by omega)
          rw [em]
          simp only
          obtain ⟨fs, e1, e2, e3, rank, M, r1, r2⟩ := ih (x.p + l) (x.p + l) m' (by omega) hok' hsort.2 (Or.inl rfl) (by omega)
          rw [e1]
          refine ⟨_, rfl, ⟨hlx, by simp only; omega, by simp only; omega, e2⟩, ?_, ?_⟩
          · intro f hf
            rcases List.mem_cons.mp hf with rfl | hf
            · exact ⟨hl, fun k hk => ⟨l3 k hk, hx.eq k (by simp only at hk; omega)⟩⟩
            · refine ⟨(e3 f hf).1, fun k hk => ⟨?_, ((e3 f hf).2 k hk).2⟩⟩
              have := ((e3 f hf).2 k hk).1
              rw [mg] at this
              split at this
              · cases this
              · exact this
          · refine ⟨fun y => if x.p ≤ y ∧ y < x.p + l then M + 1 + (if x.p < x.q then x.p + l - y else y - x.p) else rank y, M + 1 + l, ?_, ?_⟩
            · intro y
              simp only
              split
              · split <;> omega
              · have := r1 y; omega
            · intro f hf k hk
              rcases List.mem_cons.mp hf with rfl | hf
              · simp only at hk ⊢
                rw [if_pos (show x.p ≤ x.p + k ∧ x.p + k < x.p + l by omega)]
                have hne := hx.ne
                split
                · split <;> omega
                · have := r1 (x.q + k)
                  omega
              · have hsrc := ((e3 f hf).2 k hk).1
                rw [mg] at hsrc
                have h1 : ¬ (x.p ≤ f.src + k ∧ f.src + k < x.p + l) := by
                  intro hcc
                  rw [if_pos hcc] at hsrc
                  cases hsrc
                have h2 := FactorsOrdered.pos_ge fs _ e2 f hf
                simp only
                rw [if_neg h1, if_neg (by omega)]
                exact r2 f hf k hk
        · rw [if_neg hl]
          exact ih 0 lo marked hml hok' hsort.2 (Or.inr hall) hlo

theorem bdInduce_spec (hA : ArraysOk t A) (hs : Sentinel t) (hth : 1 ≤ th) : ∀ (n i : Nat), 1 ≤ i → i + n ≤ t.length →
    ∃ r, bdInduce A th n i = .ok r ∧ ∀ x ∈ r, IvOk t x := by
  intro n
  induction n with
  | zero => intro i _ _; exact ⟨[], rfl, by simp⟩
  | succ n ih =>
    intro i hi hle
    obtain ⟨i, rfl⟩ := Nat.exists_eq_succ_of_ne_zero (show i ≠ 0 by omega)
    obtain ⟨p, hp, -⟩ := hA.isSA.get (k := i + 1) (by omega)
    obtain ⟨q, hq, -⟩ := hA.isSA.get (k := i) (by omega)
    have hl := hA.lcp i p q hp hq
    obtain ⟨r, er, hr⟩ := ih (i + 1 + 1) (by omega) (by omega)
    rw [bdInduce, vget_ok (show A.lcp[i.succ]? = _ from hl)]
    simp only
    split
    · rename_i hge
      rw [vget_ok (show A.sa[i.succ]? = _ from hp), show i.succ - 1 = i from rfl, vget_ok hq]
      simp only
      rw [show i.succ + 1 = i + 1 + 1 from rfl, er]
      refine ⟨_, rfl, ?_⟩
      have hbd := pred_bounds hs hA.isSA (f := ⟨p, q, lcpLen (t.drop p) (t.drop q)⟩) ⟨⟨i, hp, hq⟩, Nat.le_refl _⟩
      simp only at hbd
      have hne : p ≠ q := by
        rintro rfl
        have := hA.isSA.inj hp hq
        omega
      have hlt := (hs.lcp_lt (i := p) (j := q) (by omega) (by omega) hne).2.1
      have heq : ∀ k, k < lcpLen (t.drop p) (t.drop q) → t[q + k]? = t[p + k]? := by
        have := (resolvable_of_pred hA.isSA (fs := [⟨p, q, lcpLen (t.drop p) (t.drop q)⟩]) (by
          intro f hf
          rw [List.mem_singleton] at hf
          subst hf
          exact ⟨⟨i, hp, hq⟩, Nat.le_refl _⟩)).eq
        exact this _ (List.mem_singleton.mpr rfl)
      intro x hx
      rcases List.mem_cons.mp hx with rfl | hx
      · exact ⟨by simp only; omega, hne, by simp only; omega, by simp only; omega, heq⟩
      rcases List.mem_cons.mp hx with rfl | hx
      · exact ⟨by simp only; omega, Ne.symm hne, by simp only; omega, by simp only; omega, fun k hk => (heq k hk).symm⟩
      · exact hr x hx
    · exact ⟨r, er, hr⟩

theorem bdRun_spec (th : Nat) (iv : List Interval) (h : ∀ x ∈ iv, IvOk t x) :
    ∃ fs, bdRun t.length th iv = .ok fs ∧ FactorsOrdered t.length 0 fs ∧ (∀ f ∈ fs, th ≤ f.len) ∧ Resolvable t fs := by
  have hs : (iv.mergeSort Interval.le).Pairwise (fun a b => a.p ≤ b.p) := by
    have := List.pairwise_mergeSort (le := Interval.le)
      (by
        intro a b c h1 h2
        unfold Interval.le at *
        split at h1 <;> split at h2 <;> split <;> simp_all <;> omega)
      (by
        intro a b
        unfold Interval.le
        split <;> split <;> simp_all <;> omega) iv
    refine this.imp ?_
    intro a b h
    unfold Interval.le at h
    split at h <;> simp_all
  obtain ⟨fs, e1, e2, e3, rank, M, r1, r2⟩ := bdProcess_spec (th := th) (iv.mergeSort Interval.le) 0 0 (List.replicate t.length false) (by simp)
    (fun x hx => h x (List.mem_mergeSort.mp hx)) hs (Or.inl rfl) (Nat.zero_le _)
  exact ⟨fs, e1, e2, fun f hf => (e3 f hf).1, fun f hf k hk => ((e3 f hf).2 k hk).2, rank, r2⟩

theorem bulldozerComp_spec (hA : ArraysOk t A) (hs : Sentinel t) : bulldozerComp A th = .ok [] := by
  have : ∃ r, bdInduce A th (A.sa.length - 1) 1 = .ok r := by
    have key : ∀ (n i : Nat), 1 ≤ i → i + n ≤ t.length → ∃ r, bdInduce A th n i = .ok r := by
      intro n
      induction n with
      | zero => intro i _ _; exact ⟨[], rfl⟩
      | succ n ih =>
        intro i hi hle
        obtain ⟨i, rfl⟩ := Nat.exists_eq_succ_of_ne_zero (show i ≠ 0 by omega)
        obtain ⟨p, hp, -⟩ := hA.isSA.get (k := i + 1) (by omega)
        obtain ⟨q, hq, -⟩ := hA.isSA.get (k := i) (by omega)
        have hl := hA.lcp i p q hp hq
        obtain ⟨r, er⟩ := ih (i + 1 + 1) (by omega) (by omega)
        rw [bdInduce, vget_ok (show A.lcp[i.succ]? = _ from hl)]
        simp only
        split
        · rw [vget_ok (show A.sa[i.succ]? = _ from hp), show i.succ - 1 = i from rfl, vget_ok hq]
          simp only
          rw [show i.succ + 1 = i + 1 + 1 from rfl, er]
          exact ⟨_, rfl⟩
        · exact ⟨r, er⟩
    have := hs.len_pos
    exact key _ 1 (Nat.le_refl _) (by rw [hA.isSA.length]; omega)
  obtain ⟨r, er⟩ := this
  rw [bulldozerComp, er]
  simp [bdRun, bdProcess]

end LC
end Tdc
