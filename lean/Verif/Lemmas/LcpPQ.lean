import Verif.Lemmas.LcpArrays

namespace Tdc
namespace LC

variable {t : List UInt8} {A : TextArrays} {th : Nat} {σ : Type}

/-- What a priority queue over the indices `0, …, n - 1` has to satisfy. -/
structure PQ.Lawful (Q : PQ σ) (n : Nat) (Inv : σ → Prop) (alive : σ → Nat → Bool) : Prop where
  keysLen : ∀ q, Inv q → (Q.keys q).length = n
  size : ∀ q, Inv q → (Q.size q > 0 ↔ ∃ i, i < n ∧ alive q i = true)
  contains : ∀ q i, Inv q → i < n → Q.contains q i = .ok (alive q i)
  getMax : ∀ q, Inv q → (∃ i, i < n ∧ alive q i = true) → ∃ m, Q.getMax q = .ok m ∧ m < n ∧ alive q m = true ∧
    ∀ i, i < n → alive q i = true → (Q.keys q).getD i 0 ≤ (Q.keys q).getD m 0
  remove : ∀ q i, Inv q → i < n → alive q i = true → ∃ q', Q.remove q i = .ok q' ∧ Inv q' ∧ Q.keys q' = Q.keys q ∧
    ∀ j, j < n → alive q' j = (alive q j && decide (j ≠ i))
  decrease : ∀ q i v, Inv q → i < n → alive q i = true → 1 ≤ v → v ≤ (Q.keys q).getD i 0 → ∃ q', Q.decrease q i v = .ok q' ∧ Inv q' ∧
    Q.keys q' = (Q.keys q).set i v ∧ ∀ j, j < n → alive q' j = alive q j

section
variable {Q : PQ σ} {Inv : σ → Prop} {alive : σ → Nat → Bool}

/-- the keys of contained entries -/
def PQ.K (Q : PQ σ) (alive : σ → Nat → Bool) (n : Nat) (q : σ) (i : Nat) : Nat :=
  if i < n ∧ alive q i = true then (Q.keys q).getD i 0 else 0

theorem pqErase_spec (hA : ArraysOk t A) (hQ : Q.Lawful t.length Inv alive) (n : Nat) : ∀ (p : Nat) (q : σ), p + n ≤ t.length → Inv q →
    ∃ q', pqErase Q A.isa p n q = .ok q' ∧ Inv q' ∧ Q.keys q' = Q.keys q ∧
      ∀ i x : Nat, A.sa[i]? = some x → alive q' i = (alive q i && decide (¬ (p ≤ x ∧ x < p + n))) := by
  induction n with
  | zero =>
    intro p q _ hq
    refine ⟨q, rfl, hq, rfl, ?_⟩
    intro i x _
    rw [decide_eq_true (by omega), Bool.and_true]
  | succ n ih =>
    intro p q hp hq
    obtain ⟨r, hr, e1, e2⟩ := ArraysOk.rank hA (p := p) (by omega)
    have key : ∃ q1, (if alive q r then Q.remove q r else .ok q) = .ok q1 ∧ Inv q1 ∧ Q.keys q1 = Q.keys q ∧
        ∀ j, j < t.length → alive q1 j = (alive q j && decide (j ≠ r)) := by
      by_cases ha : alive q r = true
      · rw [if_pos ha]
        exact hQ.remove q r hq hr ha
      · rw [if_neg ha]
        refine ⟨q, rfl, hq, rfl, ?_⟩
        intro j hj
        by_cases hjr : j = r
        · subst hjr
          simp only [Bool.not_eq_true] at ha
          simp [ha]
        · simp [hjr]
    obtain ⟨q1, k1, k2, k3, k4⟩ := key
    obtain ⟨q', e3, i3, l3, h3⟩ := ih (p + 1) q1 (by omega) k2
    refine ⟨q', ?_, i3, by rw [l3, k3], ?_⟩
    · rw [pqErase, vget_ok e1]
      simp only
      rw [hQ.contains q r hq hr]
      simp only [k1]
      exact e3
    · intro i x hi
      rw [h3 i x hi, k4 i (by rw [← hA.isSA.length]; exact (List.getElem?_eq_some_iff.mp hi).1), Bool.and_assoc, ← Bool.decide_and]
      congr 1
      rw [decide_eq_decide]
      have : i = r ↔ x = p := by
        constructor
        · rintro rfl; rw [e2] at hi; cases hi; rfl
        · rintro rfl; exact hA.isSA.inj hi e2
      omega

theorem pqClip1_spec (hA : ArraysOk t A) (hQ : Q.Lawful t.length Inv alive) (hth : 1 ≤ th) {p k : Nat} (hk : k < p) (hpl : p ≤ t.length) {q : σ} (hq : Inv q)
    (hal : ∀ i, i < t.length → alive q i = true → th ≤ (Q.keys q).getD i 0) :
    ∃ q', pqClip1 Q A.isa th p k q = .ok q' ∧ Inv q' ∧ (∀ i, i < t.length → alive q' i = true → th ≤ (Q.keys q').getD i 0 ∧ alive q i = true) ∧
      (∀ i x : Nat, A.sa[i]? = some x → x ≠ p - k - 1 → Q.K alive t.length q' i = Q.K alive t.length q i) ∧
      (∀ i : Nat, A.sa[i]? = some (p - k - 1) → Q.K alive t.length q' i ≤ min (k + 1) (Q.K alive t.length q i) ∧
        (th ≤ min (k + 1) (Q.K alive t.length q i) → Q.K alive t.length q' i = min (k + 1) (Q.K alive t.length q i))) := by
  obtain ⟨r, hr, e1, e2⟩ := ArraysOk.rank hA (p := p - k - 1) (by omega)
  have huniq : ∀ i x : Nat, A.sa[i]? = some x → x ≠ p - k - 1 → i ≠ r := by
    rintro i x hi hx rfl
    rw [e2] at hi; cases hi; exact hx rfl
  have huniq' : ∀ i : Nat, A.sa[i]? = some (p - k - 1) → i = r := fun i hi => hA.isSA.inj hi e2
  have hkl := hQ.keysLen q hq
  rw [pqClip1, vget_ok e1]
  simp only
  rw [hQ.contains q r hq hr]
  cases ha : alive q r with
  | false =>
    refine ⟨q, rfl, hq, fun i hi h => ⟨hal i hi h, h⟩, fun _ _ _ _ => rfl, ?_⟩
    intro i hi
    obtain rfl := huniq' i hi
    have : Q.K alive t.length q i = 0 := by unfold PQ.K; rw [if_neg (by simp [ha])]
    rw [this]
    exact ⟨Nat.zero_le _, fun h => by omega⟩
  | true =>
    simp only
    rw [vget_ok (getElem?_of_lt (by omega))]
    simp only
    have hKr : Q.K alive t.length q r = (Q.keys q).getD r 0 := by unfold PQ.K; rw [if_pos ⟨hr, ha⟩]
    have hpk : p - (p - k - 1) = k + 1 := by omega
    split
    · rename_i hgt
      rw [hpk]
      split
      · rename_i hge
        obtain ⟨q', e, i1, k1, a1⟩ := hQ.decrease q r (k + 1) hq hr ha (by omega) (by omega)
        refine ⟨q', e, i1, ?_, ?_, ?_⟩
        · intro i hi h
          rw [a1 i hi] at h
          refine ⟨?_, h⟩
          rw [k1]
          by_cases hir : r = i
          · subst hir; rw [getD_set_self (by omega)]; exact hge
          · rw [getD_set_ne hir]; exact hal i hi h
        · intro i x hi hx
          have hne := huniq i x hi hx
          have hil : i < t.length := by rw [← hA.isSA.length]; exact (List.getElem?_eq_some_iff.mp hi).1
          unfold PQ.K
          rw [a1 i hil, k1, getD_set_ne (Ne.symm hne)]
        · intro i hi
          obtain rfl := huniq' i hi
          have : Q.K alive t.length q' i = k + 1 := by
            unfold PQ.K; rw [if_pos ⟨hr, by rw [a1 i hr]; exact ha⟩, k1, getD_set_self (by omega)]
          rw [this, hKr]
          exact ⟨by omega, fun _ => by omega⟩
      · rename_i hge
        obtain ⟨q', e, i1, k1, a1⟩ := hQ.remove q r hq hr ha
        refine ⟨q', e, i1, ?_, ?_, ?_⟩
        · intro i hi h
          rw [a1 i hi] at h
          simp only [Bool.and_eq_true] at h
          rw [k1]
          exact ⟨hal i hi h.1, h.1⟩
        · intro i x hi hx
          have hne := huniq i x hi hx
          have hil : i < t.length := by rw [← hA.isSA.length]; exact (List.getElem?_eq_some_iff.mp hi).1
          unfold PQ.K
          rw [a1 i hil, k1, decide_eq_true hne, Bool.and_true]
        · intro i hi
          obtain rfl := huniq' i hi
          have : Q.K alive t.length q' i = 0 := by
            unfold PQ.K; rw [if_neg (by rw [a1 i hr]; simp)]
          rw [this]
          exact ⟨Nat.zero_le _, fun h => by omega⟩
    · rename_i hgt
      refine ⟨q, rfl, hq, fun i hi h => ⟨hal i hi h, h⟩, fun _ _ _ _ => rfl, ?_⟩
      intro i hi
      obtain rfl := huniq' i hi
      rw [hKr]
      exact ⟨by omega, fun _ => by omega⟩

theorem pqClip_spec (hA : ArraysOk t A) (hQ : Q.Lawful t.length Inv alive) (hth : 1 ≤ th) {p : Nat} (hpl : p ≤ t.length) (n : Nat) :
    ∀ (k : Nat) (q : σ), k + n ≤ p → Inv q → (∀ i, i < t.length → alive q i = true → th ≤ (Q.keys q).getD i 0) →
    ∃ q', pqClip Q A.isa th p n k q = .ok q' ∧ Inv q' ∧ (∀ i, i < t.length → alive q' i = true → th ≤ (Q.keys q').getD i 0 ∧ alive q i = true) ∧
      (∀ i x : Nat, A.sa[i]? = some x → ¬ (x < p ∧ k < p - x ∧ p - x ≤ k + n) → Q.K alive t.length q' i = Q.K alive t.length q i) ∧
      (∀ i x : Nat, A.sa[i]? = some x → (x < p ∧ k < p - x ∧ p - x ≤ k + n) → Q.K alive t.length q' i ≤ min (p - x) (Q.K alive t.length q i) ∧
        (th ≤ min (p - x) (Q.K alive t.length q i) → Q.K alive t.length q' i = min (p - x) (Q.K alive t.length q i))) := by
  induction n with
  | zero =>
    intro k q _ hq hal
    exact ⟨q, rfl, hq, fun i hi h => ⟨hal i hi h, h⟩, fun _ _ _ _ => rfl, fun i x _ h => by omega⟩
  | succ n ih =>
    intro k q hk hq hal
    obtain ⟨q1, e1, i1, a1, b1, c1⟩ := pqClip1_spec hA hQ hth (k := k) (by omega) hpl hq hal
    obtain ⟨q2, e2, i2, a2, b2, c2⟩ := ih (k + 1) q1 (by omega) i1 (fun i hi h => (a1 i hi h).1)
    refine ⟨q2, by rw [pqClip, e1]; exact e2, i2, fun i hi h => ⟨(a2 i hi h).1, (a1 i hi (a2 i hi h).2).2⟩, ?_, ?_⟩
    · intro i x hi hx
      rw [b2 i x hi (by omega), b1 i x hi (by omega)]
    · intro i x hi hx
      by_cases hxk : x = p - k - 1
      · rw [b2 i x hi (by omega)]
        have := c1 i (hxk ▸ hi)
        rw [show p - x = k + 1 by omega]
        exact this
      · rw [← b1 i x hi hxk]
        exact c2 i x hi (by omega)

/-- one round of the main loop -/
theorem pqStep_spec (hA : ArraysOk t A) (hs : Sentinel t) (hQ : Q.Lawful t.length Inv alive) (hth : 1 ≤ th) {pre : List Factor} {q : σ} (hq : Inv q)
    (hal : ∀ i, i < t.length → alive q i = true → th ≤ (Q.keys q).getD i 0) (hg : GInv A th pre (Q.K alive t.length q))
    (hne : ∃ i, i < t.length ∧ alive q i = true) :
    ∃ f q' m, pqStep Q A th q = .ok (f, q') ∧ Inv q' ∧ (∀ i, i < t.length → alive q' i = true → th ≤ (Q.keys q').getD i 0 ∧ alive q i = true) ∧
      GInv A th (pre ++ [f]) (Q.K alive t.length q') ∧ (m < t.length ∧ alive q m = true ∧ alive q' m = false) ∧
      (Available t A.sa pre f.pos f.src f.len ∧ th ≤ f.len ∧ ∀ q j l, th ≤ l → Available t A.sa pre q j l → l ≤ f.len) := by
  obtain ⟨m, e0, hm, ham, hmax⟩ := hQ.getMax q hq hne
  have hKm : Q.K alive t.length q m = (Q.keys q).getD m 0 := by unfold PQ.K; rw [if_pos ⟨hm, ham⟩]
  have hmaxK : ∀ i : Nat, i < A.sa.length → Q.K alive t.length q i ≤ Q.K alive t.length q m := by
    intro i hi
    rw [hKm]
    unfold PQ.K
    split
    · rename_i h; exact hmax i h.1 h.2
    · exact Nat.zero_le _
  have hthm := hal m hm ham
  have hm0 : m ≠ 0 := by
    rintro rfl
    have := hg.le 0
    rw [ArraysOk.lcpD0 hA, hKm] at this
    omega
  obtain ⟨k, rfl⟩ : ∃ k, m = k + 1 := ⟨m - 1, by omega⟩
  obtain ⟨p, hp, hpl⟩ := hA.isSA.get hm
  obtain ⟨s, hsrc, hsl⟩ := hA.isSA.get (k := k) (by omega)
  have hle := hg.le (k + 1)
  rw [ArraysOk.lcpD hA hp hsrc, hKm] at hle
  have hb := (pred_bounds hs hA.isSA (f := ⟨p, s, (Q.keys q).getD (k + 1) 0⟩) ⟨⟨k, hp, hsrc⟩, hle⟩).2
  simp only at hb
  have hgr := hg.greedy hA hp hsrc (by rw [hKm]; exact hthm) hmaxK
  have hkl := hQ.keysLen q hq
  generalize hlen : (Q.keys q).getD (k + 1) 0 = len at *
  rw [hKm] at hgr hmaxK
  obtain ⟨q1, e1, i1, l1, a1⟩ := pqErase_spec hA hQ len p q (by omega) hq
  have hsaget : ∀ i, i < t.length → ∃ x, A.sa[i]? = some x := fun i hi => by
    obtain ⟨x, hx, -⟩ := hA.isSA.get hi; exact ⟨x, hx⟩
  have hal1 : ∀ i, i < t.length → alive q1 i = true → th ≤ (Q.keys q1).getD i 0 ∧ alive q i = true := by
    intro i hi h
    obtain ⟨x, hx⟩ := hsaget i hi
    rw [a1 i x hx, Bool.and_eq_true] at h
    rw [l1]
    exact ⟨hal i hi h.1, h.1⟩
  obtain ⟨q2, e2, i2, a2, b2, c2⟩ := pqClip_spec hA hQ hth (p := p) (by omega) (min len p) 0 q1 (by omega) i1 (fun i hi h => (hal1 i hi h).1)
  have hK1 : ∀ i x : Nat, A.sa[i]? = some x → Q.K alive t.length q1 i = if p ≤ x ∧ x < p + len then 0 else Q.K alive t.length q i := by
    intro i x hx
    unfold PQ.K
    rw [a1 i x hx, l1]
    by_cases hc : p ≤ x ∧ x < p + len
    · rw [if_pos hc, decide_eq_false (by omega), if_neg (by simp)]
    · rw [if_neg hc, decide_eq_true hc, Bool.and_true]
  refine ⟨⟨p, s, len⟩, q2, k + 1, ?_, i2, fun i hi h => ⟨(a2 i hi h).1, (hal1 i hi (a2 i hi h).2).2⟩, ?_, ⟨hm, ham, ?_⟩, hgr⟩
  · rw [pqStep, e0]
    simp only
    rw [if_neg hm0, vget_ok hp, Nat.add_sub_cancel, vget_ok hsrc, vget_ok (getElem?_of_lt (by omega)), hlen]
    simp only [e1, e2]
  · refine hg.step hth hmaxK ?_ ?_ ?_
    · intro i hi
      rw [hA.isSA.length] at hi
      unfold PQ.K
      rw [if_neg (by omega)]
      exact Nat.zero_le _
    · intro i x hx
      unfold cut
      by_cases ha : p ≤ x ∧ x < p + len
      · rw [if_pos ha, b2 i x hx (by omega), hK1 i x hx, if_pos ha]; exact Nat.le_refl _
      · rw [if_neg ha]
        have hk := hK1 i x hx
        rw [if_neg ha] at hk
        by_cases hb : x < p ∧ p - x ≤ len
        · rw [if_pos hb, ← hk]; exact (c2 i x hx (by omega)).1
        · rw [if_neg hb, ← hk, b2 i x hx (by omega)]; exact Nat.le_refl _
    · intro i x hx
      unfold cut
      by_cases ha : p ≤ x ∧ x < p + len
      · rw [if_pos ha]; intro h; omega
      · rw [if_neg ha]
        have hk := hK1 i x hx
        rw [if_neg ha] at hk
        by_cases hb : x < p ∧ p - x ≤ len
        · rw [if_pos hb, ← hk]; exact (c2 i x hx (by omega)).2
        · rw [if_neg hb, ← hk]; intro _; exact b2 i x hx (by omega)
  · cases h : alive q2 (k + 1) with
    | false => rfl
    | true =>
      have := (a2 (k + 1) hm h).2
      rw [a1 (k + 1) p hp, decide_eq_false (by omega), Bool.and_false] at this
      cases this

/-- the number of contained entries -/
def aliveCount (alive : σ → Nat → Bool) (n : Nat) (q : σ) : Nat := (List.range n).countP (fun i => alive q i)

theorem aliveCount_lt {n : Nat} {q q' : σ} (h : ∀ i, i < n → alive q' i = true → alive q i = true) {m : Nat} (hm : m < n) (h1 : alive q m = true)
    (h2 : alive q' m = false) : aliveCount alive n q' < aliveCount alive n q := by
  have gen : ∀ (l : List Nat), (∀ i ∈ l, i < n) → l.countP (fun i => alive q' i) ≤ l.countP (fun i => alive q i) ∧
      (m ∈ l → l.countP (fun i => alive q' i) < l.countP (fun i => alive q i)) := by
    intro l
    induction l with
    | nil => intro _; simp
    | cons x l ih =>
      intro hl
      obtain ⟨a, b⟩ := ih (fun i hi => hl i (by simp [hi]))
      rw [List.countP_cons, List.countP_cons]
      have hx := h x (hl x (by simp))
      refine ⟨?_, ?_⟩
      · split
        · rename_i hx'; rw [if_pos (hx hx')]; omega
        · omega
      · intro hmem
        rcases List.mem_cons.mp hmem with rfl | hmem
        · rw [if_neg (by simp [h2]), if_pos h1]; omega
        · have := b hmem
          split
          · rename_i hx'; rw [if_pos (hx hx')]; omega
          · omega
  exact (gen (List.range n) (by simp)).2 (by simpa using hm)

theorem pqLoop_spec (hA : ArraysOk t A) (hs : Sentinel t) (hQ : Q.Lawful t.length Inv alive) (hth : 1 ≤ th) (fuel : Nat) :
    ∀ (pre : List Factor) (q : σ), Inv q → (∀ i, i < t.length → alive q i = true → th ≤ (Q.keys q).getD i 0) →
      GInv A th pre (Q.K alive t.length q) → aliveCount alive t.length q < fuel →
      ∃ fs, pqLoop Q A th fuel q = .ok fs ∧ LcpGreedy t A.sa th pre fs := by
  induction fuel with
  | zero => intro pre q _ _ _ h; omega
  | succ fuel ih =>
    intro pre q hq hal hg hf
    rw [pqLoop]
    by_cases hsz : Q.size q > 0
    · rw [if_pos hsz]
      obtain ⟨f, q', m, e, i1, a1, g1, ⟨m1, m2, m3⟩, hgr⟩ := pqStep_spec hA hs hQ hth hq hal hg ((hQ.size q hq).mp hsz)
      have hlt := aliveCount_lt (q := q) (q' := q') (fun i hi h => (a1 i hi h).2) m1 m2 m3
      obtain ⟨fs, e2, h2⟩ := ih (pre ++ [f]) q' i1 (fun i hi h => (a1 i hi h).1) g1 (by omega)
      refine ⟨f :: fs, ?_, hgr.1, hgr.2.1, hgr.2.2, h2⟩
      simp only [e, e2]
    · rw [if_neg hsz]
      refine ⟨[], rfl, hg.done hA ?_⟩
      intro i hi
      have : ¬ (i < t.length ∧ alive q i = true) := fun h => hsz ((hQ.size q hq).mpr ⟨i, h.1, h.2⟩)
      unfold PQ.K
      rw [if_neg this]
      omega

/-- a queue that contains exactly the entries with LCP value `threshold` or more -/
theorem pqLoop_init (hA : ArraysOk t A) (hs : Sentinel t) (hQ : Q.Lawful t.length Inv alive) (hth : 1 ≤ th) {q : σ} (hq : Inv q) (hk : Q.keys q = A.lcp)
    (ha : ∀ i, i < t.length → (alive q i = true ↔ th ≤ A.lcp.getD i 0)) :
    ∃ fs, pqLoop Q A th (A.lcp.length + 1) q = .ok fs ∧ LcpGreedy t A.sa th [] fs := by
  refine pqLoop_spec hA hs hQ hth _ [] q hq (fun i hi h => by rw [hk]; exact (ha i hi).mp h) ?_ ?_
  · refine GInv.init A th ?_ ?_
    · intro i
      unfold PQ.K
      split
      · rw [hk]; exact Nat.le_refl _
      · exact Nat.zero_le _
    · intro i hi h
      rw [hA.isSA.length] at hi
      unfold PQ.K
      rw [if_pos ⟨hi, (ha i hi).mpr h⟩, hk]
  · have : aliveCount alive t.length q ≤ (List.range t.length).length := List.countP_le_length
    rw [List.length_range] at this
    rw [hA.lcpLength]
    omega

end

/-! ### BoostHeap -/

def bhInv (n : Nat) (h : BH) : Prop := h.lcp.length = n ∧ h.alive.length = n

theorem bhBetter_key {lcp sa : List Nat} {i j : Nat} (h : bhBetter lcp sa i j = true) : lcp.getD j 0 ≤ lcp.getD i 0 := by
  unfold bhBetter at h
  split at h
  · omega
  · simp only [decide_eq_true_eq] at h; omega

theorem bhBetter_not {lcp sa : List Nat} {i j : Nat} (h : ¬ bhBetter lcp sa i j = true) : lcp.getD i 0 ≤ lcp.getD j 0 := by
  unfold bhBetter at h
  split at h
  · omega
  · simp only [decide_eq_true_eq] at h; omega

theorem bhFold_spec (lcp sa : List Nat) (xs : List Nat) : ∀ x : Nat, (xs.foldl (fun m i => if bhBetter lcp sa i m then i else m) x) ∈ x :: xs ∧
    ∀ i ∈ x :: xs, lcp.getD i 0 ≤ lcp.getD (xs.foldl (fun m i => if bhBetter lcp sa i m then i else m) x) 0 := by
  induction xs with
  | nil => intro x; simp
  | cons y xs ih =>
    intro x
    rw [List.foldl_cons]
    by_cases h : bhBetter lcp sa y x = true
    · rw [if_pos h]
      obtain ⟨a, b⟩ := ih y
      refine ⟨List.mem_cons_of_mem _ a, ?_⟩
      intro i hi
      rcases List.mem_cons.mp hi with rfl | hi
      · have := bhBetter_key h
        have := b y (by simp)
        omega
      · exact b i hi
    · rw [if_neg h]
      obtain ⟨a, b⟩ := ih x
      refine ⟨?_, ?_⟩
      · rcases List.mem_cons.mp a with a | a
        · rw [a]; simp
        · simp [a]
      · intro i hi
        rcases List.mem_cons.mp hi with rfl | hi
        · exact b i (by simp)
        · rcases List.mem_cons.mp hi with rfl | hi
          · have := bhBetter_not h
            have := b x (by simp)
            omega
          · exact b i (by simp [hi])

theorem getD_bool_of_lt {l : List Bool} {i : Nat} (h : i < l.length) : l[i]? = some (l.getD i false) := by
  rw [List.getElem?_eq_getElem h, List.getD_eq_getElem?_getD, List.getElem?_eq_getElem h]; rfl

theorem getD_set_bool {l : List Bool} {i j : Nat} (hi : i < l.length) : (l.set i false).getD j false = (l.getD j false && decide (j ≠ i)) := by
  by_cases h : i = j
  · subst h
    rw [List.getD_eq_getElem?_getD, List.getElem?_set_self hi]
    simp
  · rw [List.getD_eq_getElem?_getD, List.getElem?_set_ne h, List.getD_eq_getElem?_getD, decide_eq_true (Ne.symm h), Bool.and_true]

theorem bh_lawful (n : Nat) : bhQueue.Lawful n (bhInv n) (fun h i => h.alive.getD i false) where
  keysLen := fun q h => h.1
  size := by
    intro q hq
    show q.alive.count true > 0 ↔ _
    rw [gt_iff_lt, List.count_pos_iff]
    constructor
    · intro h
      obtain ⟨i, hi, he⟩ := List.mem_iff_getElem.mp h
      refine ⟨i, by rw [← hq.2]; exact hi, ?_⟩
      show q.alive.getD i false = true
      rw [List.getD_eq_getElem?_getD, List.getElem?_eq_getElem hi, he]; rfl
    · rintro ⟨i, hi, he⟩
      have := getD_bool_of_lt (l := q.alive) (i := i) (by rw [hq.2]; exact hi)
      rw [show q.alive.getD i false = true from he] at this
      exact List.mem_of_getElem? this
  contains := by
    intro q i hq hi
    exact vget_ok (getD_bool_of_lt (by rw [hq.2]; exact hi))
  getMax := by
    intro q hq hne
    show ∃ m, q.top = .ok m ∧ _
    unfold BH.top
    obtain ⟨i, hi, he⟩ := hne
    have hmem : ∀ j, j ∈ (List.range q.alive.length).filter (fun i => q.alive.getD i false) ↔ j < n ∧ q.alive.getD j false = true := by
      intro j
      rw [List.mem_filter, List.mem_range, hq.2]
    generalize (List.range q.alive.length).filter (fun i => q.alive.getD i false) = xs at hmem
    cases xs with
    | nil => have := (hmem i).mpr ⟨hi, he⟩; simp at this
    | cons x xs =>
      obtain ⟨a, b⟩ := bhFold_spec q.lcp q.sa xs x
      obtain ⟨c, d⟩ := (hmem _).mp a
      exact ⟨_, rfl, c, d, fun i hi he => b i ((hmem i).mpr ⟨hi, he⟩)⟩
  remove := by
    intro q i hq hi ha
    refine ⟨{ q with alive := q.alive.set i false }, ?_, ⟨hq.1, by simpa using hq.2⟩, rfl, ?_⟩
    · show (if q.alive[i]? = some true then _ else _) = _
      rw [getD_bool_of_lt (by rw [hq.2]; exact hi), show q.alive.getD i false = true from ha, if_pos rfl]
    · intro j hj
      exact getD_set_bool (by rw [hq.2]; exact hi)
  decrease := by
    intro q i v hq hi ha h1 h2
    refine ⟨{ q with lcp := q.lcp.set i v }, ?_, ⟨by simpa using hq.1, hq.2⟩, rfl, fun _ _ => rfl⟩
    show (match vset q.lcp i v with | .error e => _ | .ok lcp => _) = _
    rw [vset_ok v (by rw [hq.1]; exact hi)]

theorem boostHeapComp_spec (hA : ArraysOk t A) (hs : Sentinel t) (hth : 1 ≤ th) (mx : Nat) :
    ∃ fs, boostHeapComp A mx th = .ok fs ∧ LcpGreedy t A.sa th [] fs := by
  refine pqLoop_init hA hs (bh_lawful t.length) hth ⟨hA.lcpLength, by simp [BH.init, hA.lcpLength]⟩ rfl ?_
  intro i hi
  show (BH.init A th).alive.getD i false = true ↔ _
  have h0 := ArraysOk.lcpD0 hA
  rw [BH.init, List.getD_eq_getElem?_getD, List.getElem?_map, List.getElem?_range (by rw [hA.lcpLength]; exact hi)]
  simp only [Option.map_some, Option.getD_some, decide_eq_true_eq]
  constructor
  · exact fun h => h.2
  · intro h
    refine ⟨?_, h⟩
    rcases Nat.eq_zero_or_pos i with rfl | h'
    · omega
    · exact h'

end LC
end Tdc
