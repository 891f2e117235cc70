import Verif.Lemmas.Rank
import Mathlib.Tactic.Ring
import Mathlib.Tactic.Linarith
import Mathlib.Tactic.ByContra

/-!
# Lemmas for Select
-/

namespace Tdc
namespace RS

/-- `p` is the position of the `k`-th element satisfying `f` (`k ≥ 1`). -/
def IsSel (f : Nat → Bool) (k p : Nat) : Prop := f p = true ∧ cnt f p + 1 = k

theorem IsSel.le {f : Nat → Bool} {k p N : Nat} (h : IsSel f k p) (hp : p < N) : k ≤ cnt f N := by
  have := cnt_mono f (show p + 1 ≤ N by omega)
  rw [cnt_succ, h.1] at this
  have := h.2
  simp at *
  omega

theorem IsSel.lt {f : Nat → Bool} {k p N : Nat} (h : IsSel f k p) (hk : k ≤ cnt f N) : p < N := by
  by_contra hn
  have := cnt_mono f (show N ≤ p by omega)
  have := h.2
  omega

theorem IsSel.mono {f : Nat → Bool} {k k' p p' : Nat} (h : IsSel f k p) (h' : IsSel f k' p') (hk : k ≤ k') : p ≤ p' := by
  by_contra hn
  have := h'.le (N := p) (by omega)
  have := h.2
  omega

theorem IsSel.unique {f : Nat → Bool} {k p p' : Nat} (h : IsSel f k p) (h' : IsSel f k p') : p = p' :=
  Nat.le_antisymm (h.mono h' (le_refl _)) (h'.mono h (le_refl _))

theorem exists_sel (f : Nat → Bool) (k N : Nat) (h1 : 1 ≤ k) (h2 : k ≤ cnt f N) : ∃ p < N, IsSel f k p := by
  induction N with
  | zero => simp at h2; omega
  | succ N ih =>
    by_cases h : k ≤ cnt f N
    · obtain ⟨p, hp, hs⟩ := ih h
      exact ⟨p, by omega, hs⟩
    · rw [cnt_succ] at h2
      refine ⟨N, by omega, ?_, ?_⟩ <;> split at h2 <;> simp_all <;> omega

theorem IsSel.shift {f : Nat → Bool} {a k p : Nat} (h : IsSel (fun i => f (a + i)) k p) : IsSel f (cnt f a + k) (a + p) :=
  ⟨h.1, by rw [cnt_add]; have := h.2; omega⟩

/-- What the word level functions of `Select<m_bit>` have to do; `g v` are the flagged bits of the word `v`. -/
structure Basic.Good (B : Basic) (g : Nat → Nat → Bool) : Prop where
  rank : ∀ v < 2 ^ 64, B.rank v = cnt (g v) 64
  ranklm : ∀ v < 2 ^ 64, ∀ l < 64, B.ranklm v l 63 = cnt (g v) 64 - cnt (g v) l
  sel : ∀ v < 2 ^ 64, ∀ k p, p < 64 → IsSel (g v) k p → B.select v k = p
  selFail : ∀ v < 2 ^ 64, ∀ k, cnt (g v) 64 < k → B.select v k = selectFail
  sell : ∀ v < 2 ^ 64, ∀ l < 64, ∀ k p, l + p < 64 → IsSel (fun i => g v (l + i)) k p → B.selectl v l k = .ok (l + p)
  sellFail : ∀ v < 2 ^ 64, ∀ l < 64, ∀ k, cnt (fun i => g v (l + i)) (64 - l) < k → B.selectl v l k = .ok selectFail

theorem cnt_cons (f : Nat → Bool) (p : Nat) : cnt f (p + 1) = (if f 0 then 1 else 0) + cnt (fun i => f (i + 1)) p := by
  rw [Nat.add_comm p 1, cnt_add, show cnt f 1 = cnt f 0 + _ from cnt_succ f 0]
  simp [Nat.add_comm]

theorem testBit_zero_odd (v : Nat) : v.testBit 0 = decide (v % 2 = 1) := by rw [Nat.testBit_zero]

theorem testBit_half (v : Nat) : (fun i => v.testBit (i + 1)) = (v / 2).testBit := by
  funext i; rw [Nat.testBit_succ]

theorem select1Loop_sel (v k pos p : Nat) (h : IsSel v.testBit k p) : select1Loop v k pos = pos + p := by
  induction v using Nat.strong_induction_on generalizing k pos p with
  | _ v ih =>
    rw [select1Loop]
    have hv : v ≠ 0 := by rintro rfl; simpa using h.1
    rw [dif_neg hv]
    obtain ⟨h1, h2⟩ := h
    cases p with
    | zero =>
      rw [testBit_zero_odd, decide_eq_true_eq] at h1
      rw [if_pos h1, if_pos (by simp at h2; omega)]; rfl
    | succ p =>
      rw [cnt_cons, testBit_half, testBit_zero_odd] at h2
      rw [Nat.testBit_succ] at h1
      by_cases ho : v % 2 = 1
      · simp only [ho, decide_true, if_true] at h2 ⊢
        rw [if_neg (by omega), ih (v / 2) (by omega) (k - 1) (pos + 1) p ⟨h1, by omega⟩]
        omega
      · simp only [ho, decide_false, Bool.false_eq_true, if_false] at h2 ⊢
        rw [ih (v / 2) (by omega) k (pos + 1) p ⟨h1, by omega⟩]
        omega

theorem select1Loop_fail (v k pos : Nat) (hk : 1 ≤ k) (h : ∀ p, ¬ IsSel v.testBit k p) : select1Loop v k pos = selectFail := by
  induction v using Nat.strong_induction_on generalizing k pos with
  | _ v ih =>
    rw [select1Loop]
    by_cases hv : v = 0
    · rw [dif_pos hv]
    · rw [dif_neg hv]
      have hs : ∀ p, IsSel (v / 2).testBit (k - (if v % 2 = 1 then 1 else 0)) p → k ≠ 0 → (v % 2 = 1 → k ≠ 1) → False := by
        intro p hp hk0 hk1
        refine h (p + 1) ⟨by rw [Nat.testBit_succ]; exact hp.1, ?_⟩
        rw [cnt_cons, testBit_half, testBit_zero_odd]
        have := hp.2
        by_cases ho : v % 2 = 1 <;> simp [ho] at * <;> omega
      by_cases ho : v % 2 = 1
      · rw [if_pos ho]
        have hk1 : k ≠ 1 := by
          rintro rfl
          exact h 0 ⟨by rw [testBit_zero_odd]; simpa using ho, rfl⟩
        rw [if_neg (by omega)]
        refine ih (v / 2) (by omega) (k - 1) (pos + 1) (by omega) (fun p hp => hs p (by simpa [ho] using hp) (by omega) (fun _ => hk1))
      · rw [if_neg ho]
        exact ih (v / 2) (by omega) k (pos + 1) hk (fun p hp => hs p (by simpa [ho] using hp) (by omega) (fun h => absurd h ho))

theorem testBit_lt_of_lt {v p N : Nat} (hv : v < 2 ^ N) (h : v.testBit p = true) : p < N := by
  by_contra hn
  have := Nat.testBit_lt_two_pow (lt_of_lt_of_le hv (Nat.pow_le_pow_right (by omega) (show N ≤ p by omega)))
  rw [this] at h; cases h

theorem shiftRight_testBit (v l : Nat) : (v >>> l).testBit = fun i => v.testBit (l + i) := by
  funext i; rw [Nat.testBit_shiftRight]

theorem basic1_good : basic1.Good (fun v => v.testBit) where
  rank _ _ := rfl
  ranklm v _ l hl := rank1lm_eq v l (by omega)
  sel v _ k p _ h := by
    show select1w v k = p
    rw [select1w, select1Loop_sel v k 0 p h]; omega
  selFail v hv k h := by
    refine select1Loop_fail v k 0 (by omega) (fun p hp => ?_)
    have := hp.le (N := 64) (testBit_lt_of_lt hv hp.1)
    omega
  sell v _ l hl k p hlp h := by
    show select1l v l k = _
    rw [select1l, if_neg (by omega)]
    have : select1w (v >>> l) k = p := by rw [select1w, select1Loop_sel _ k 0 p (by rw [shiftRight_testBit]; exact h)]; omega
    simp only [this]
    rw [if_pos (by simp only [selectFail]; omega)]
  sellFail v hv l hl k h := by
    show select1l v l k = _
    rw [select1l, if_neg (by omega)]
    have : select1w (v >>> l) k = selectFail := by
      refine select1Loop_fail _ k 0 (by omega) (fun p hp => ?_)
      rw [shiftRight_testBit] at hp
      have := hp.le (N := 64 - l) (by have := testBit_lt_of_lt hv hp.1; omega)
      omega
    simp only [this]
    rw [if_neg (by simp)]

theorem notBit_half (v : Nat) : (fun i => !v.testBit (i + 1)) = (fun i => !(v / 2).testBit i) := by
  funext i; rw [Nat.testBit_succ]

theorem select0Loop_sel (v k pos p : Nat) (hv : v < 2 ^ (64 - pos)) (hpos : pos ≤ 64) (h : IsSel (fun i => !v.testBit i) k p) :
    select0Loop v k pos = if pos + p ≤ 63 then pos + p else selectFail := by
  induction v using Nat.strong_induction_on generalizing k pos p with
  | _ v ih =>
    rw [select0Loop]
    by_cases hv0 : v = 0
    · rw [dif_pos hv0]
      subst hv0
      have : p = k - 1 := by
        have h2 := h.2
        rw [cnt_congr (g := fun _ => true) (fun i _ => by simp)] at h2
        have : cnt (fun _ => true) p = p := by simp [cnt]
        omega
      rw [this]
    · rw [dif_neg hv0]
      have hp64 : pos ≤ 63 := by
        by_contra hn
        rw [show 64 - pos = 0 by omega] at hv
        omega
      have hv2 : v / 2 < 2 ^ (64 - (pos + 1)) := by
        rw [show 64 - pos = (64 - (pos + 1)) + 1 by omega, pow_succ] at hv
        omega
      obtain ⟨h1, h2⟩ := h
      cases p with
      | zero =>
        simp only [testBit_zero_odd, Bool.not_eq_true', decide_eq_false_iff_not] at h1
        rw [if_pos (by omega), if_pos (by simp at h2; omega), if_pos (by omega)]; rfl
      | succ p =>
        rw [cnt_cons, notBit_half, testBit_zero_odd] at h2
        change (!v.testBit (p + 1)) = true at h1
        rw [Nat.testBit_succ] at h1
        by_cases ho : v % 2 = 1
        · rw [if_neg (by omega)]
          simp only [ho, decide_true, Bool.not_true, Bool.false_eq_true, if_false] at h2
          rw [ih (v / 2) (by omega) k (pos + 1) p hv2 (by omega) ⟨h1, by omega⟩]
          rw [show pos + 1 + p = pos + (p + 1) by omega]
        · rw [if_pos (by omega)]
          simp only [ho, decide_false, Bool.not_false, if_true] at h2
          rw [if_neg (by omega), ih (v / 2) (by omega) (k - 1) (pos + 1) p hv2 (by omega) ⟨h1, by omega⟩]
          rw [show pos + 1 + p = pos + (p + 1) by omega]

/-- On the infinite continuation by zero bits there always is a `k`-th zero. -/
theorem exists_sel0 (v k : Nat) (hk : 1 ≤ k) : ∃ p, IsSel (fun i => !v.testBit i) k p := by
  have : ∃ N, k ≤ cnt (fun i => !v.testBit i) N := by
    refine ⟨v + k, ?_⟩
    rw [cnt_add]
    have : cnt (fun i => !v.testBit (v + i)) k = k := by
      rw [cnt_congr (g := fun _ => true)]
      · simp [cnt]
      · intro i _
        rw [Nat.testBit_lt_two_pow (lt_of_lt_of_le Nat.lt_two_pow_self (Nat.pow_le_pow_right (by omega) (by omega)))]
        rfl
    omega
  obtain ⟨N, hN⟩ := this
  obtain ⟨p, -, hp⟩ := exists_sel _ k N hk hN
  exact ⟨p, hp⟩

theorem select0w_sel (v k p : Nat) (hv : v < 2 ^ 64) (h : IsSel (fun i => !v.testBit i) k p) :
    select0w v k = if p ≤ 63 then p else selectFail := by
  rw [select0w, select0Loop_sel v k 0 p (by simpa using hv) (by omega) h]
  simp

theorem basic0_good : basic0.Good (fun v i => !v.testBit i) where
  rank v _ := by
    show 63 + 1 - popcount v = _
    rw [cnt_not, popcount_eq]
  ranklm v _ l hl := by
    show (63 - l + 1) - rank1lm v l 63 = _
    rw [rank1lm_eq v l (by omega), cnt_not (fun k => v.testBit k) 64, cnt_not (fun k => v.testBit k) l]
    have := cnt_le (fun k => v.testBit k) l
    have h1 := cnt_add (fun k => v.testBit k) l (64 - l)
    have h2 := cnt_le (fun k => v.testBit (l + k)) (64 - l)
    rw [show l + (64 - l) = 64 by omega] at h1
    omega
  sel v hv k p hp h := by
    show select0w v k = p
    rw [select0w_sel v k p hv h, if_pos (by omega)]
  selFail v hv k h := by
    show select0w v k = _
    obtain ⟨p, hp⟩ := exists_sel0 v k (by omega)
    rw [select0w_sel v k p hv hp, if_neg]
    intro hle
    have := hp.le (N := 64) (by omega)
    omega
  sell v hv l hl k p hlp h := by
    show select0l v l k = _
    rw [select0l, if_neg (by omega)]
    have h' : IsSel (fun i => !(v >>> l).testBit i) k p := by
      simp only [shiftRight_testBit]; exact h
    have hlt : v >>> l < 2 ^ 64 := lt_of_le_of_lt (Nat.shiftRight_le v l) hv
    simp only [select0w_sel _ k p hlt h', if_pos (show p ≤ 63 by omega)]
    rw [if_pos (by simp only [selectFail]; omega), if_pos (by omega), Nat.add_comm]
  sellFail v hv l hl k h := by
    show select0l v l k = _
    rw [select0l, if_neg (by omega)]
    have hlt : v >>> l < 2 ^ 64 := lt_of_le_of_lt (Nat.shiftRight_le v l) hv
    obtain ⟨p, hp⟩ := exists_sel0 (v >>> l) k (by omega)
    have hpl : 64 - l ≤ p := by
      by_contra hn
      simp only [shiftRight_testBit] at hp
      have := hp.le (N := 64 - l) (by omega)
      omega
    simp only [select0w_sel _ k p hlt hp]
    by_cases h63 : p ≤ 63
    · rw [if_pos h63, if_pos (by simp only [selectFail]; omega), if_neg (by omega)]
    · rw [if_neg h63, if_neg (by simp)]

/-! ### The structure -/

/-- The flagged positions of the array of words. -/
def flag (g : Nat → Nat → Bool) (data : List Nat) (i : Nat) : Bool := g (data.getD (i / 64) 0) (i % 64)

theorem flag_word (g : Nat → Nat → Bool) (data : List Nat) (j k v : Nat) (hv : data[j]? = some v) (hk : k < 64) :
    flag g data (64 * j + k) = g v k := by
  rw [flag, show (64 * j + k) / 64 = j by omega, show (64 * j + k) % 64 = k by omega, List.getD_eq_getElem?_getD, hv]
  rfl

theorem cnt_flag_word (g : Nat → Nat → Bool) (data : List Nat) (j v : Nat) (hv : data[j]? = some v) (m : Nat) (hm : m ≤ 64) :
    cnt (flag g data) (64 * j + m) = cnt (flag g data) (64 * j) + cnt (g v) m := by
  rw [cnt_add]
  congr 1
  exact cnt_congr (fun k hk => flag_word g data j k v hv (by omega))

/-- The position of the `k`-th flagged bit. -/
noncomputable def P (f : Nat → Bool) (k : Nat) : Nat := Classical.epsilon (IsSel f k)

theorem P_spec {f : Nat → Bool} {k p : Nat} (h : IsSel f k p) : P f k = p :=
  IsSel.unique (Classical.epsilon_spec (p := IsSel f k) ⟨p, h⟩) h

theorem P_sel {f : Nat → Bool} {k N : Nat} (h1 : 1 ≤ k) (h2 : k ≤ cnt f N) : IsSel f k (P f k) ∧ P f k < N := by
  obtain ⟨p, hp, hs⟩ := exists_sel f k N h1 h2
  rw [P_spec hs]; exact ⟨hs, hp⟩

/-- Where superblock `i` starts counting. -/
noncomputable def offP (f : Nat → Bool) (b i : Nat) : Nat := if i = 0 then 0 else P f (i * (b * b))

/-- The invariant of the construction: `m` blocks are recorded, `u` flagged bits accounted for. -/
structure SelInv (f : Nat → Bool) (b cb cs bound : Nat) (s : SelSt) (m u : Nat) : Prop where
  blen : s.blocks.length = cb
  slen : s.sups.length = cs
  curB : s.curB = m
  curSb : s.curSb = m / b
  off : s.curSbOffset = offP f b (m / b)
  rSb : s.rSb = u - m / b * (b * b)
  blk : ∀ j < m, s.blocks[j]? = some ((P f ((j + 1) * b) - offP f b ((j + 1) / b)) % 2 ^ b)
  sup : ∀ i < m / b, s.sups[i]? = some (P f ((i + 1) * (b * b)) % 2 ^ b)
  long : ∀ i < m / b, P f ((i + 1) * (b * b)) - offP f b i ≤ s.longestSb
  bnd : s.longestSb ≤ bound

theorem succ_div_cases (m b : Nat) (hb : 0 < b) : ((m + 1) / b = m / b ∧ (m + 1) * b < (m / b + 1) * (b * b)) ∨
    ((m + 1) / b = m / b + 1 ∧ (m + 1) = (m / b + 1) * b) := by
  rw [Nat.succ_div]
  by_cases h : b ∣ m + 1
  · right
    rw [if_pos h]
    refine ⟨rfl, ?_⟩
    have := Nat.succ_div_of_dvd h
    have h2 := Nat.div_mul_cancel h
    rw [← h2, this]
  · left
    rw [if_neg h]
    refine ⟨rfl, ?_⟩
    have h1 := Nat.succ_div_of_not_dvd h
    have h2 : (m + 1) < (m / b + 1) * b := by
      rw [← h1]
      exact (Nat.div_lt_iff_lt_mul hb).mp (Nat.lt_succ_self _)
    have := Nat.mul_lt_mul_of_pos_right h2 hb
    rw [Nat.mul_assoc] at this
    exact this

theorem selInner_inv (B : Basic) (g : Nat → Nat → Bool) (hB : B.Good g) (data : List Nat) (b i v cb cs bound : Nat) (hb : 0 < b)
    (hv : data[i]? = some v) (hv64 : v < 2 ^ 64) (hbound : 64 * (i + 1) ≤ bound)
    (hcb : cnt (flag g data) (64 * (i + 1)) / b ≤ cb) (hcs : cnt (flag g data) (64 * (i + 1)) / (b * b) ≤ cs)
    (fuel : Nat) (s : SelSt) (dist offs dsum m u : Nat)
    (hs : SelInv (flag g data) b cb cs bound s m u)
    (hdist : u + dist = (m + 1) * b) (hdist0 : 0 < dist) (hmu : m * b ≤ u)
    (hoffs : offs ≤ 64) (hoffc : cnt (flag g data) (64 * i) + cnt (g v) offs = u)
    (hrB : s.rB + m * b = cnt (flag g data) (64 * (i + 1)))
    (hdsum : cnt (flag g data) (64 * i) + dsum = u)
    (hfuel : cnt (flag g data) (64 * (i + 1)) < fuel + u) :
    ∃ s' dsum' m' u', selInner B b i v fuel s dist offs dsum = .ok (s', dsum') ∧ SelInv (flag g data) b cb cs bound s' m' u' ∧
      s'.rB + m' * b = cnt (flag g data) (64 * (i + 1)) ∧ s'.rB < b ∧ s'.max = s.max ∧ cnt (flag g data) (64 * i) + dsum' = u' ∧
      u' ≤ cnt (flag g data) (64 * (i + 1)) ∧ m' * b ≤ u' := by
  have hw : cnt (flag g data) (64 * (i + 1)) = cnt (flag g data) (64 * i) + cnt (g v) 64 := cnt_flag_word g data i v hv 64 (le_refl _)
  induction fuel generalizing s dist offs dsum m u with
  | zero =>
    have := cnt_mono (g v) hoffs
    omega
  | succ fuel ih =>
    rw [selInner]
    by_cases hlt : s.rB < b
    · rw [if_pos hlt]
      have := cnt_mono (g v) hoffs
      exact ⟨s, dsum, m, u, rfl, hs, hrB, hlt, rfl, hdsum, by omega, hmu⟩
    · rw [if_neg hlt]
      have hmb : (m + 1) * b ≤ cnt (flag g data) (64 * (i + 1)) := by
        rw [Nat.add_mul]; omega
      -- the boundary bit
      have hoff64 : offs < 64 := by
        rcases Nat.lt_or_eq_of_le hoffs with h | h
        · exact h
        · subst h; omega
      have hsum : cnt (g v) 64 = cnt (g v) offs + cnt (fun k => g v (offs + k)) (64 - offs) := by
        rw [← cnt_add]; congr 1; omega
      obtain ⟨p, hp, hsel⟩ := exists_sel (fun k => g v (offs + k)) dist (64 - offs) hdist0 (by omega)
      have hsell := hB.sell v hv64 offs hoff64 dist p (by omega) hsel
      have hsel2 : IsSel (g v) (cnt (g v) offs + dist) (offs + p) := hsel.shift
      have hsel3 : IsSel (flag g data) ((m + 1) * b) (i * 64 + (offs + p)) := by
        have : IsSel (fun k => flag g data (64 * i + k)) (cnt (g v) offs + dist) (offs + p) := by
          refine ⟨?_, ?_⟩
          · show flag g data (64 * i + (offs + p)) = true
            rw [flag_word g data i _ v hv (by omega)]; exact hsel2.1
          · rw [cnt_congr (g := g v) (fun k hk => flag_word g data i k v hv (by omega))]; exact hsel2.2
        have := this.shift
        rw [show (m + 1) * b = cnt (flag g data) (64 * i) + (cnt (g v) offs + dist) by omega, Nat.mul_comm i 64]
        exact this
      have hpos := P_spec hsel3
      have hposlt : i * 64 + (offs + p) < 64 * (i + 1) := by omega
      -- the state after the possible change of superblock
      obtain ⟨s₁, hs₁, e1, e2, e3, e4, e5, e6, e7, e8, e9, e10, e11⟩ : ∃ s₁ : SelSt, selSup b (i * 64 + (offs + p)) { s with rSb := s.rSb + dist } = .ok s₁ ∧ s₁.blocks = s.blocks ∧ s₁.sups.length = cs ∧ s₁.curB = m ∧
          s₁.curSb = (m + 1) / b ∧ s₁.curSbOffset = offP (flag g data) b ((m + 1) / b) ∧ s₁.rSb = (m + 1) * b - (m + 1) / b * (b * b) ∧
          (∀ i < (m + 1) / b, s₁.sups[i]? = some (P (flag g data) ((i + 1) * (b * b)) % 2 ^ b)) ∧
          (∀ i < (m + 1) / b, P (flag g data) ((i + 1) * (b * b)) - offP (flag g data) b i ≤ s₁.longestSb) ∧ s₁.longestSb ≤ bound ∧
          s₁.rB = s.rB ∧ s₁.max = s.max := by
        have hq : m / b * (b * b) ≤ u := by
          have h1 := Nat.div_mul_le_self m b
          have := Nat.mul_le_mul_right b h1
          rw [Nat.mul_assoc] at this
          omega
        rw [selSup]
        simp only [hs.rSb]
        rcases succ_div_cases m b hb with ⟨hc1, hc2⟩ | ⟨hc1, hc2⟩
        · rw [if_neg (by rw [Nat.add_mul (m / b) 1] at hc2; omega)]
          refine ⟨_, rfl, rfl, hs.slen, hs.curB, ?_, ?_, ?_, ?_, ?_, hs.bnd, rfl, rfl⟩
          · show s.curSb = _
            rw [hs.curSb, hc1]
          · show s.curSbOffset = _
            rw [hs.off, hc1]
          · show u - m / b * (b * b) + dist = _
            rw [hc1]; omega
          · rw [hc1]; exact hs.sup
          · rw [hc1]; exact hs.long
        · have hmul : (m + 1) * b = (m / b + 1) * (b * b) := by rw [hc2, Nat.mul_assoc]
          have hge : u - m / b * (b * b) + dist ≥ b * b := by
            have := hmul
            rw [Nat.add_mul (m / b) 1] at this
            omega
          have hlen : s.curSb < s.sups.length := by
            rw [hs.slen, hs.curSb]
            refine lt_of_lt_of_le (Nat.lt_succ_self _) (le_trans ?_ hcs)
            rw [Nat.le_div_iff_mul_le (Nat.mul_pos hb hb)]
            show (m / b + 1) * (b * b) ≤ _
            rw [← hmul]; exact hmb
          rw [if_pos hge, wr_ok hlen]
          refine ⟨_, rfl, rfl, by simpa using hs.slen, hs.curB, ?_, ?_, ?_, ?_, ?_, ?_, rfl, rfl⟩
          · show s.curSb + 1 = _
            rw [hs.curSb, hc1]
          · show i * 64 + (offs + p) = _
            rw [hc1, offP, if_neg (Nat.succ_ne_zero _), ← hmul, hpos]
          · show u - m / b * (b * b) + dist - b * b = _
            rw [hc1, Nat.add_mul (m / b) 1]
            omega
          · intro i' hi'
            show (s.sups.set s.curSb _)[i']? = _
            rw [List.getElem?_set]
            by_cases hii : s.curSb = i'
            · rw [if_pos hii, if_pos hlen, ← hii, hs.curSb, ← hmul, hpos]
            · rw [if_neg hii]
              rw [hs.curSb] at hii
              exact hs.sup i' (by omega)
          · intro i' hi'
            show _ ≤ Nat.max s.longestSb _
            by_cases hii : m / b = i'
            · refine le_trans (le_of_eq ?_) (Nat.le_max_right _ _)
              rw [← hii, ← hmul, hpos, hs.off]
            · exact le_trans (hs.long i' (by omega)) (Nat.le_max_left _ _)
          · exact Nat.max_le.mpr ⟨hs.bnd, by omega⟩
      have hcbl : s.curB < s.blocks.length := by
        rw [hs.blen, hs.curB]
        refine lt_of_lt_of_le (Nat.lt_succ_self _) (le_trans ?_ hcb)
        rw [Nat.le_div_iff_mul_le hb]; exact hmb
      -- the invariant after this pass
      have hinv : SelInv (flag g data) b cb cs bound
          { s₁ with blocks := s₁.blocks.set s₁.curB ((i * 64 + (offs + p) - s₁.curSbOffset) % 2 ^ b), curB := s₁.curB + 1, rB := s₁.rB - b }
          (m + 1) ((m + 1) * b) := by
        constructor
        · simpa [e1] using hs.blen
        · exact e2
        · show s₁.curB + 1 = _
          rw [e3]
        · exact e4
        · exact e5
        · exact e6
        · intro j hj
          show (s₁.blocks.set s₁.curB _)[j]? = _
          rw [List.getElem?_set]
          by_cases hjm : s₁.curB = j
          · rw [if_pos hjm, if_pos (by rw [e1, e3, ← hs.curB]; exact hcbl), e5, ← hjm, e3, hpos]
          · rw [if_neg hjm, e1]
            rw [e3] at hjm
            exact hs.blk j (by omega)
        · exact e7
        · exact e8
        · exact e9
      have hcnt1 : cnt (flag g data) (64 * i) + cnt (g v) (offs + p + 1) = (m + 1) * b := by
        rw [cnt_succ, hsel2.1]
        have := hsel2.2
        simp only [if_true]
        omega
      obtain ⟨s', dsum', m', u', r1, r2, r3, r4, r5, r6, r7, r8⟩ := ih
        { s₁ with blocks := s₁.blocks.set s₁.curB ((i * 64 + (offs + p) - s₁.curSbOffset) % 2 ^ b), curB := s₁.curB + 1, rB := s₁.rB - b }
        b (offs + p + 1) (dsum + dist) (m + 1) ((m + 1) * b) hinv (by rw [Nat.add_mul (m + 1) 1]; omega) hb (le_refl _) (by omega) hcnt1
        (by show s₁.rB - b + (m + 1) * b = _; rw [e10, Nat.add_mul]; omega) (by omega) (by omega)
      refine ⟨s', dsum', m', u', ?_, r2, r3, r4, r5.trans e11, r6, r7, r8⟩
      rw [hsell]
      show (do
        let s ← selSup b (i * 64 + (offs + p)) { s with rSb := s.rSb + dist }
        let blocks ← wr s.blocks s.curB ((i * 64 + (offs + p) - s.curSbOffset) % 2 ^ b)
        let s := { s with blocks := blocks, curB := s.curB + 1, rB := s.rB - b }
        selInner B b i v fuel s b (offs + p + 1) (dsum + dist) : Res (SelSt × Nat)) = _
      rw [hs₁]
      show (do
        let blocks ← wr s₁.blocks s₁.curB ((i * 64 + (offs + p) - s₁.curSbOffset) % 2 ^ b)
        let s := { s₁ with blocks := blocks, curB := s₁.curB + 1, rB := s₁.rB - b }
        selInner B b i v fuel s b (offs + p + 1) (dsum + dist) : Res (SelSt × Nat)) = _
      rw [wr_ok (by rw [e1, e3, ← hs.curB]; exact hcbl)]
      exact r1

/-- The invariant between words. -/
structure SelOut (f : Nat → Bool) (b cb cs bound : Nat) (s : SelSt) (c : Nat) : Prop where
  inv : SelInv f b cb cs bound s (c / b) c
  rB : s.rB = c % b
  max : s.max = c

theorem selStep_inv (B : Basic) (g : Nat → Nat → Bool) (hB : B.Good g) (data : List Nat) (b i cb cs bound : Nat) (hb : 0 < b)
    (hi : i < data.length) (hdata : ∀ v ∈ data, v < 2 ^ 64) (hbound : 64 * (i + 1) ≤ bound)
    (hcb : cnt (flag g data) (64 * (i + 1)) / b ≤ cb) (hcs : cnt (flag g data) (64 * (i + 1)) / (b * b) ≤ cs) (s : SelSt)
    (hs : SelOut (flag g data) b cb cs bound s (cnt (flag g data) (64 * i))) :
    ∃ s', selStep B b data s i = .ok s' ∧ SelOut (flag g data) b cb cs bound s' (cnt (flag g data) (64 * (i + 1))) := by
  obtain ⟨v, hv⟩ : ∃ v, data[i]? = some v := ⟨_, List.getElem?_eq_getElem hi⟩
  have hv64 : v < 2 ^ 64 := hdata v (List.mem_of_getElem? hv)
  have hw : cnt (flag g data) (64 * (i + 1)) = cnt (flag g data) (64 * i) + cnt (g v) 64 := cnt_flag_word g data i v hv 64 (le_refl _)
  have hr : B.rank v = cnt (g v) 64 := hB.rank v hv64
  have hdm := Nat.div_add_mod (cnt (flag g data) (64 * i)) b
  have hmod := Nat.mod_lt (cnt (flag g data) (64 * i)) hb
  rw [Nat.mul_comm] at hdm
  have h64 := cnt_le (g v) 64
  rw [selStep, rd_ok hv]
  show ∃ s', (if s.rB + B.rank v ≥ b then do
      let (s', dsum) ← selInner B b i v 65 { ({ s with max := s.max + B.rank v } : SelSt) with rB := s.rB + B.rank v } (b - s.rB) 0 0
      pure { s' with rSb := s'.rSb + (B.rank v - dsum) }
    else pure { ({ s with max := s.max + B.rank v } : SelSt) with rB := s.rB + B.rank v, rSb := s.rSb + B.rank v } : Res SelSt) = .ok s' ∧ _
  rw [hr]
  by_cases hge : s.rB + cnt (g v) 64 ≥ b
  · rw [if_pos hge]
    rw [hs.rB] at hge
    obtain ⟨s', dsum', m', u', r1, r2, r3, r4, r5, r6, r7, r8⟩ := selInner_inv B g hB data b i v cb cs bound hb hv hv64 hbound hcb hcs 65
      { ({ s with max := s.max + cnt (g v) 64 } : SelSt) with rB := s.rB + cnt (g v) 64 } (b - s.rB) 0 0
      (cnt (flag g data) (64 * i) / b) (cnt (flag g data) (64 * i))
      ⟨hs.inv.blen, hs.inv.slen, hs.inv.curB, hs.inv.curSb, hs.inv.off, hs.inv.rSb, hs.inv.blk, hs.inv.sup, hs.inv.long, hs.inv.bnd⟩
      (by rw [hs.rB, Nat.add_mul]; omega) (by rw [hs.rB]; omega) (by omega) (by omega) (by simp)
      (by show s.rB + cnt (g v) 64 + _ = _; rw [hs.rB]; omega) (by omega) (by omega)
    refine ⟨_, by rw [r1]; rfl, ?_⟩
    have hm' : cnt (flag g data) (64 * (i + 1)) / b = m' := by
      rw [← r3, Nat.add_mul_div_right _ _ hb, Nat.div_eq_of_lt r4, Nat.zero_add]
    have hq : m' / b * (b * b) ≤ u' := by
      have h1 := Nat.div_mul_le_self m' b
      have := Nat.mul_le_mul_right b h1
      rw [Nat.mul_assoc] at this
      omega
    refine ⟨?_, ?_, ?_⟩
    · rw [hm']
      refine ⟨r2.blen, r2.slen, r2.curB, r2.curSb, r2.off, ?_, r2.blk, r2.sup, r2.long, r2.bnd⟩
      show s'.rSb + (cnt (g v) 64 - dsum') = _
      rw [r2.rSb]
      omega
    · show s'.rB = _
      rw [← r3, Nat.add_mul_mod_self_right, Nat.mod_eq_of_lt r4]
    · show s'.max = _
      rw [r5]
      show s.max + cnt (g v) 64 = _
      rw [hs.max, hw]
  · rw [if_neg hge]
    rw [hs.rB] at hge
    have hm' : cnt (flag g data) (64 * (i + 1)) / b = cnt (flag g data) (64 * i) / b := by
      rw [hw, ← hdm, show cnt (flag g data) (64 * i) / b * b + cnt (flag g data) (64 * i) % b + cnt (g v) 64 =
        cnt (flag g data) (64 * i) % b + cnt (g v) 64 + cnt (flag g data) (64 * i) / b * b by omega, Nat.add_mul_div_right _ _ hb,
        Nat.div_eq_of_lt (by omega), Nat.zero_add, hdm]
    refine ⟨_, rfl, ⟨?_, ?_, ?_⟩⟩
    · rw [hm']
      refine ⟨hs.inv.blen, hs.inv.slen, hs.inv.curB, hs.inv.curSb, hs.inv.off, ?_, hs.inv.blk, hs.inv.sup, hs.inv.long, hs.inv.bnd⟩
      show s.rSb + cnt (g v) 64 = _
      rw [hs.inv.rSb, hw]
      have h1 := Nat.div_mul_le_self (cnt (flag g data) (64 * i) / b) b
      have := Nat.mul_le_mul_right b h1
      rw [Nat.mul_assoc] at this
      omega
    · show s.rB + cnt (g v) 64 = _
      rw [hs.rB, hw]
      have hcc : cnt (flag g data) (64 * i) + cnt (g v) 64 =
        cnt (flag g data) (64 * i) % b + cnt (g v) 64 + cnt (flag g data) (64 * i) / b * b := by omega
      rw [hcc, Nat.add_mul_mod_self_right, Nat.mod_eq_of_lt (show cnt (flag g data) (64 * i) % b + cnt (g v) 64 < b by omega)]
    · show s.max + cnt (g v) 64 = _
      rw [hs.max, hw]

/-! ### Sizes -/

theorem idivCeil_mul (a b : Nat) (hb : 0 < b) : a ≤ idivCeil a b * b := by
  unfold idivCeil
  have hdm := Nat.div_add_mod a b
  have hlt := Nat.mod_lt a hb
  rw [Nat.mul_comm] at hdm
  split
  · rw [Nat.add_mul]; omega
  · simp; omega

theorem room_ge (k w : Nat) (hw : 0 < w) : k ≤ room k w := by
  unfold room
  rw [Nat.le_div_iff_mul_le hw, Nat.mul_comm 64]
  exact idivCeil_mul _ _ (by omega)

theorem room_blocks (n b : Nat) (hb : 0 < b) : 64 * idivCeil n 64 / b ≤ room (idivCeil n b) b := by
  unfold room
  apply Nat.div_le_div_right
  have h1 := idivCeil_mul n b hb
  rw [idivCeil64, idivCeil64]
  omega

theorem room_sups_small : ∀ n < 128, 64 * idivCeil n 64 / (bitsFor n * bitsFor n) ≤ room (idivCeil n (bitsFor n * bitsFor n)) (bitsFor n) := by
  decide +kernel

theorem room_sups (n : Nat) (hn : n < 2 ^ 64) :
    64 * idivCeil n 64 / (bitsFor n * bitsFor n) ≤ room (idivCeil n (bitsFor n * bitsFor n)) (bitsFor n) := by
  have hb := bitsFor_pos n hn
  by_cases h : n < 128
  · exact room_sups_small n h
  · refine le_trans ?_ (room_ge _ _ hb)
    have h8 : 8 ≤ bitsFor n := by
      by_contra hlt
      have := lt_two_pow_bitsFor n hn
      have := Nat.pow_le_pow_right (show 2 > 0 by omega) (show bitsFor n ≤ 7 by omega)
      omega
    have h1 := idivCeil_mul n (bitsFor n * bitsFor n) (Nat.mul_pos hb hb)
    have h64 : 64 ≤ bitsFor n * bitsFor n := Nat.mul_le_mul h8 h8
    apply Nat.le_of_lt_succ
    rw [Nat.div_lt_iff_lt_mul (Nat.mul_pos hb hb), Nat.succ_eq_add_one, Nat.add_mul, idivCeil64]
    omega

/-- What the constructor leaves. -/
structure Built (f : Nat → Bool) (bv : BV) (S : Select) : Prop where
  hbv : S.bv = bv
  max : S.max = cnt f (64 * idivCeil bv.n 64)
  bs : S.blockSize = bitsFor bv.n
  ss : S.supSize = bitsFor bv.n * bitsFor bv.n
  blk : ∃ wb, (∀ i ≤ cnt f bv.n / (bitsFor bv.n * bitsFor bv.n), offP f (bitsFor bv.n) i ≤ bv.n → ∀ k, k ≤ cnt f bv.n →
      (i + 1) * (bitsFor bv.n * bitsFor bv.n) ≥ k → 1 ≤ k → P f k - offP f (bitsFor bv.n) i < 2 ^ wb) ∧
    ∀ j < cnt f bv.n / bitsFor bv.n, S.blocks[j]? = some ((P f ((j + 1) * bitsFor bv.n) - offP f (bitsFor bv.n) ((j + 1) / bitsFor bv.n)) % 2 ^ bitsFor bv.n % 2 ^ wb)
  sup : ∀ i < cnt f bv.n / (bitsFor bv.n * bitsFor bv.n), S.sups[i]? = some (P f ((i + 1) * (bitsFor bv.n * bitsFor bv.n)) % 2 ^ bitsFor bv.n)

theorem sel_build (B : Basic) (g : Nat → Nat → Bool) (hB : B.Good g) (bv : BV) (h : bv.WF) (h63 : bv.n < 2 ^ 63) :
    ∃ S, Select.build B bv = .ok S ∧ Built (flag g bv.data) bv S := by
  obtain ⟨b, hbdef⟩ : ∃ b, b = bitsFor bv.n := ⟨_, rfl⟩
  have hb : 0 < b := hbdef ▸ bitsFor_pos bv.n h.size
  have hrs := room_sups bv.n h.size
  rw [← hbdef] at hrs
  have hrb := room_blocks bv.n b hb
  obtain ⟨f, hf⟩ : ∃ f, f = flag g bv.data := ⟨_, rfl⟩
  have key : ∀ m ≤ idivCeil bv.n 64, ∃ s, (List.range m).foldlM (selStep B b bv.data)
      { max := 0, rSb := 0, rB := 0, sups := List.replicate (room (idivCeil bv.n (b * b)) b) 0,
        blocks := List.replicate (room (idivCeil bv.n b) b) 0, curSb := 0, curSbOffset := 0, longestSb := 0, curB := 0 } = .ok s ∧
      SelOut f b (room (idivCeil bv.n b) b) (room (idivCeil bv.n (b * b)) b) (64 * idivCeil bv.n 64) s (cnt f (64 * m)) := by
    intro m hm
    induction m with
    | zero =>
      refine ⟨_, rfl, ⟨⟨by simp, by simp, by simp, by simp, by simp [offP], by simp, by simp, by simp, by simp, by simp⟩, by simp, by simp⟩⟩
    | succ m ih =>
      obtain ⟨s, h1, h2⟩ := ih (by omega)
      have hc : cnt f (64 * (m + 1)) ≤ 64 * idivCeil bv.n 64 := le_trans (cnt_le _ _) (by omega)
      rw [hf] at h2 hc
      obtain ⟨s', h3, h4⟩ := selStep_inv B g hB bv.data b m _ _ _ hb (by rw [h.len]; omega) h.words (show 64 * (m + 1) ≤ 64 * idivCeil bv.n 64 by omega)
        (le_trans (Nat.div_le_div_right hc) hrb) (le_trans (Nat.div_le_div_right hc) hrs) s h2
      refine ⟨s', ?_, hf ▸ h4⟩
      rw [List.range_succ, List.foldlM_append, h1]
      show (List.foldlM (m := Except Fault) (selStep B b bv.data) s [m]) = _
      simp only [List.foldlM_cons, List.foldlM_nil, h3]
      rfl
  obtain ⟨s, h1, h2⟩ := key _ (le_refl _)
  obtain ⟨d, hd⟩ : ∃ d, d = (bv.n + 2 ^ 64 - s.curSbOffset) % 2 ^ 64 := ⟨_, rfl⟩
  obtain ⟨wb, hwb⟩ : ∃ wb, wb = bitsFor (Nat.max s.longestSb d) := ⟨_, rfl⟩
  have hWn : 64 * idivCeil bv.n 64 ≤ bv.n + 63 := by rw [idivCeil64]; omega
  have hnW : bv.n ≤ 64 * idivCeil bv.n 64 := by rw [idivCeil64]; omega
  have hd64 : d < 2 ^ 64 := hd ▸ Nat.mod_lt _ (by positivity)
  have hlong64 : Nat.max s.longestSb d < 2 ^ 64 := Nat.max_lt.mpr ⟨by have := h2.inv.bnd; omega, hd64⟩
  have hpow := lt_two_pow_bitsFor _ hlong64
  rw [← hwb] at hpow
  have hcn := cnt_mono f hnW
  refine ⟨{ bv := bv, max := s.max, blockSize := b, supSize := b * b, blocks := (s.blocks.take s.curB).map (· % 2 ^ wb), sups := s.sups.take s.curSb }, ?_, ?_⟩
  · unfold Select.build
    simp only [← hbdef]
    rw [h1]
    subst hwb hd
    rfl
  · rw [← hf]
    constructor
    · rfl
    · exact h2.max
    · exact hbdef
    · show b * b = _
      rw [hbdef]
    · refine ⟨wb, ?_, ?_⟩ <;> rw [← hbdef]
      · intro i hi hoff k hk hki hk1
        have hPk := (P_sel hk1 hk)
        refine lt_of_le_of_lt ?_ hpow
        have hcur : cnt f bv.n / (b * b) ≤ cnt f (64 * idivCeil bv.n 64) / b / b := by
          rw [Nat.div_div_eq_div_mul]; exact Nat.div_le_div_right hcn
        by_cases hlt : i < cnt f (64 * idivCeil bv.n 64) / b / b
        · refine le_trans ?_ (le_trans (h2.inv.long i hlt) (Nat.le_max_left _ _))
          have hle : (i + 1) * (b * b) ≤ cnt f (64 * idivCeil bv.n 64) := by
            rw [Nat.div_div_eq_div_mul] at hlt
            have := Nat.mul_le_mul_right (b * b) (show i + 1 ≤ _ from hlt)
            exact le_trans this (Nat.div_mul_le_self _ _)
          have hP2 := P_sel (f := f) (Nat.mul_pos (Nat.succ_pos i) (Nat.mul_pos hb hb)) hle
          have := hPk.1.mono hP2.1 hki
          simp only [Nat.succ_eq_add_one] at this
          omega
        · have hii : i = cnt f (64 * idivCeil bv.n 64) / b / b := by omega
          refine le_trans ?_ (Nat.le_max_right _ _)
          rw [hd, h2.inv.off, ← hii]
          have := hPk.2
          omega
      · intro j hj
        have hj2 : j < cnt f (64 * idivCeil bv.n 64) / b := lt_of_lt_of_le hj (Nat.div_le_div_right hcn)
        show ((s.blocks.take s.curB).map (· % 2 ^ wb))[j]? = _
        rw [List.getElem?_map, List.getElem?_take, if_pos (by rw [h2.inv.curB]; exact hj2), h2.inv.blk j hj2]
        rfl
    · rw [← hbdef]
      intro i hi
      have hi2 : i < cnt f (64 * idivCeil bv.n 64) / b / b := by
        rw [Nat.div_div_eq_div_mul]
        exact lt_of_lt_of_le hi (Nat.div_le_div_right hcn)
      show (s.sups.take s.curSb)[i]? = _
      rw [List.getElem?_take, if_pos (by rw [h2.inv.curSb]; exact hi2), h2.inv.sup i hi2]

theorem selScan_ok (B : Basic) (g : Nat → Nat → Bool) (hB : B.Good g) (data : List Nat) (hdata : ∀ v ∈ data, v < 2 ^ 64)
    (fuel i x k : Nat) (hx : 1 ≤ x) (hk : cnt (flag g data) (64 * i) + x = k) (hle : k ≤ cnt (flag g data) (64 * data.length))
    (hfuel : data.length < fuel + i) : selScan B data fuel i x = .ok (P (flag g data) k) := by
  induction fuel generalizing i x with
  | zero =>
    have := cnt_mono (flag g data) (show 64 * data.length ≤ 64 * i by omega)
    omega
  | succ fuel ih =>
    have hi : i < data.length := by
      by_contra hn
      have := cnt_mono (flag g data) (show 64 * data.length ≤ 64 * i by omega)
      omega
    obtain ⟨v, hv⟩ : ∃ v, data[i]? = some v := ⟨_, List.getElem?_eq_getElem hi⟩
    have hv64 : v < 2 ^ 64 := hdata v (List.mem_of_getElem? hv)
    have hw : cnt (flag g data) (64 * (i + 1)) = cnt (flag g data) (64 * i) + cnt (g v) 64 := cnt_flag_word g data i v hv 64 (le_refl _)
    rw [selScan, rd_ok hv]
    show (if B.select v x = selectFail then selScan B data fuel (i + 1) (x - B.rank v) else pure (i * 64 + B.select v x) : Res Nat) = _
    by_cases hxc : x ≤ cnt (g v) 64
    · obtain ⟨p, hp, hs⟩ := exists_sel (g v) x 64 hx hxc
      rw [hB.sel v hv64 x p hp hs, if_neg (by simp only [selectFail]; omega)]
      have : IsSel (fun j => flag g data (64 * i + j)) x p := by
        refine ⟨?_, ?_⟩
        · show flag g data (64 * i + p) = true
          rw [flag_word g data i p v hv hp]; exact hs.1
        · rw [cnt_congr (g := g v) (fun j hj => flag_word g data i j v hv (by omega))]; exact hs.2
      have := this.shift
      rw [hk] at this
      rw [P_spec this, Nat.mul_comm]
      rfl
    · rw [hB.selFail v hv64 x (by omega), if_pos rfl, hB.rank v hv64]
      exact ih (i + 1) (x - cnt (g v) 64) (by omega) (by omega) (by omega)

theorem selSearch_ok (B : Basic) (g : Nat → Nat → Bool) (hB : B.Good g) (data : List Nat) (hdata : ∀ v ∈ data, v < 2 ^ 64)
    (pos x k : Nat) (hx : 1 ≤ x) (hk : cnt (flag g data) pos + x = k) (hle : k ≤ cnt (flag g data) (64 * data.length)) :
    selSearch B data pos x = .ok (P (flag g data) k) := by
  have hi : pos / 64 < data.length := by
    by_contra hn
    have := cnt_mono (flag g data) (show 64 * data.length ≤ pos by omega)
    omega
  obtain ⟨v, hv⟩ : ∃ v, data[pos / 64]? = some v := ⟨_, List.getElem?_eq_getElem hi⟩
  have hv64 : v < 2 ^ 64 := hdata v (List.mem_of_getElem? hv)
  have hw : cnt (flag g data) (64 * (pos / 64 + 1)) = cnt (flag g data) (64 * (pos / 64)) + cnt (g v) 64 := cnt_flag_word g data _ v hv 64 (le_refl _)
  have hw2 := cnt_flag_word g data (pos / 64) v hv (pos % 64) (by omega)
  rw [Nat.div_add_mod] at hw2
  have hsum : cnt (g v) 64 = cnt (g v) (pos % 64) + cnt (fun i => g v (pos % 64 + i)) (64 - pos % 64) := by
    rw [← cnt_add]; congr 1; omega
  rw [selSearch, rd_ok hv]
  show (do
    let s ← B.selectl v (pos % 64) x
    if s ≠ selectFail then pure (pos + s - pos % 64)
    else selScan B data (data.length + 1) (pos / 64 + 1) (x - B.ranklm v (pos % 64) 63) : Res Nat) = _
  by_cases hxc : x ≤ cnt (fun i => g v (pos % 64 + i)) (64 - pos % 64)
  · obtain ⟨p, hp, hs⟩ := exists_sel _ x _ hx hxc
    rw [hB.sell v hv64 (pos % 64) (by omega) x p (by omega) hs]
    show (if pos % 64 + p ≠ selectFail then pure (pos + (pos % 64 + p) - pos % 64)
      else selScan B data (data.length + 1) (pos / 64 + 1) (x - B.ranklm v (pos % 64) 63) : Res Nat) = _
    rw [if_pos (by simp only [selectFail]; omega)]
    have : IsSel (fun j => flag g data (pos + j)) x p := by
      have hh : ∀ j < 64 - pos % 64, flag g data (pos + j) = g v (pos % 64 + j) := by
        intro j hj
        rw [← flag_word g data (pos / 64) (pos % 64 + j) v hv (by omega)]
        congr 1; omega
      refine ⟨?_, ?_⟩
      · show flag g data (pos + p) = true
        rw [hh p hp]; exact hs.1
      · rw [cnt_congr (g := fun i => g v (pos % 64 + i)) (fun j hj => hh j (by omega))]; exact hs.2
    have := this.shift
    rw [hk] at this
    rw [P_spec this]
    show Except.ok _ = _
    congr 1; omega
  · rw [hB.sellFail v hv64 (pos % 64) (by omega) x (by omega)]
    show (if selectFail ≠ selectFail then pure (pos + selectFail - pos % 64)
      else selScan B data (data.length + 1) (pos / 64 + 1) (x - B.ranklm v (pos % 64) 63) : Res Nat) = _
    rw [if_neg (by simp), hB.ranklm v hv64 (pos % 64) (by omega)]
    exact selScan_ok B g hB data hdata _ _ _ k (by omega) (by omega) hle (by omega)

theorem select_correct (B : Basic) (g : Nat → Nat → Bool) (hB : B.Good g) (bv : BV) (h : bv.WF) (S : Select)
    (hS : Built (flag g bv.data) bv S) (k : Nat) (hk1 : 1 ≤ k) (hk : k ≤ cnt (flag g bv.data) bv.n) :
    S.select B k = .ok (P (flag g bv.data) k) := by
  obtain ⟨b, hbdef⟩ : ∃ b, b = bitsFor bv.n := ⟨_, rfl⟩
  obtain ⟨f, hf⟩ : ∃ f, f = flag g bv.data := ⟨_, rfl⟩
  obtain ⟨s1, s2, s3, s4, ⟨wb, s5, s6⟩, s7⟩ := hS
  rw [← hf] at s2 s5 s6 s7 hk
  rw [← hbdef] at s3 s4 s5 s6 s7
  have hb : 0 < b := hbdef ▸ bitsFor_pos bv.n h.size
  have hbb : 0 < b * b := Nat.mul_pos hb hb
  have hn2 : bv.n < 2 ^ b := hbdef ▸ lt_two_pow_bitsFor bv.n h.size
  have hnW : bv.n ≤ 64 * idivCeil bv.n 64 := by rw [idivCeil64]; omega
  have hcn := cnt_mono f hnW
  -- i, j
  obtain ⟨i, hi⟩ : ∃ i, i = k / (b * b) := ⟨_, rfl⟩
  obtain ⟨j, hj⟩ : ∃ j, j = k / b := ⟨_, rfl⟩
  have hij : i = j / b := by rw [hi, hj, Nat.div_div_eq_div_mul]
  have hik : i * (b * b) ≤ k := hi ▸ Nat.div_mul_le_self _ _
  have hjk : j * b ≤ k := hj ▸ Nat.div_mul_le_self _ _
  have hibj : i * b ≤ j := hij ▸ Nat.div_mul_le_self _ _
  have hibb : i * (b * b) = i * b * b := (Nat.mul_assoc _ _ _).symm
  have hkj : k < j * b + b := by
    have := Nat.lt_div_mul_add (a := k) hb
    rw [← hj] at this; exact this
  have hki : k < i * (b * b) + b * b := by
    have := Nat.lt_div_mul_add (a := k) hbb
    rw [← hi] at this; exact this
  have hPlt : ∀ q, 1 ≤ q → q ≤ k → IsSel f q (P f q) ∧ P f q < bv.n := fun q h1 h2 => P_sel h1 (by omega)
  have hoffi : offP f b i = if i > 0 then P f (i * (b * b)) else 0 := by
    rw [offP]
    by_cases h0 : i = 0
    · rw [if_pos h0, if_neg (by omega)]
    · rw [if_neg h0, if_pos (by omega)]
  have hoffn : offP f b i ≤ bv.n := by
    rw [hoffi]; split
    · exact le_of_lt (hPlt _ (Nat.mul_pos (by assumption) hbb) hik).2
    · omega
  have e1 : (if i > 0 then rd S.sups (i - 1) else pure 0 : Res Nat) = .ok (offP f b i) := by
    rw [hoffi]
    by_cases h0 : i > 0
    · rw [if_pos h0, if_pos h0, rd_ok (s7 (i - 1) _), show i - 1 + 1 = i by omega, Nat.mod_eq_of_lt]
      · exact lt_trans (hPlt _ (Nat.mul_pos h0 hbb) hik).2 hn2
      · refine lt_of_lt_of_le (show i - 1 < i by omega) ?_
        rw [hi]; exact Nat.div_le_div_right hk
    · rw [if_neg h0, if_neg h0]; rfl
  have e2 : (if j - i * b > 0 then rd S.blocks (j - 1) else pure 0 : Res Nat) = .ok (if j - i * b > 0 then P f (j * b) - offP f b i else 0) := by
    by_cases h0 : j - i * b > 0
    · have hjpos : 0 < j := by omega
      rw [if_pos h0, if_pos h0, rd_ok (s6 (j - 1) _), show j - 1 + 1 = j by omega, ← hij, Nat.mod_eq_of_lt (b := 2 ^ b), Nat.mod_eq_of_lt]
      · refine s5 i ?_ hoffn (j * b) (by omega) ?_ (Nat.mul_pos hjpos hb)
        · rw [hi]; exact Nat.div_le_div_right hk
        · rw [Nat.add_mul]; omega
      · have := (hPlt _ (Nat.mul_pos hjpos hb) hjk).2
        omega
      · refine lt_of_lt_of_le (show j - 1 < j by omega) ?_
        rw [hj]; exact Nat.div_le_div_right hk
    · rw [if_neg h0, if_neg h0]; rfl
  have hlen : bv.data.length = idivCeil bv.n 64 := h.len
  rw [Select.select, s4, s3, s2, s1, if_neg (by omega), ← hi, ← hj, Nat.mul_div_cancel b hb]
  simp only [e1]
  show (if k - i * (b * b) = 0 then pure (offP f b i) else do
    let p ← (if j - i * b > 0 then rd S.blocks (j - 1) else pure 0 : Res Nat)
    if k - i * (b * b) - (j - i * b) * b = 0 then pure (offP f b i + p)
    else selSearch B bv.data (if i > 0 ∨ j - i * b > 0 then offP f b i + p + 1 else offP f b i + p) (k - i * (b * b) - (j - i * b) * b) : Res Nat) = _
  rw [← hf]
  by_cases h1 : k - i * (b * b) = 0
  · rw [if_pos h1]
    have hki : k = i * (b * b) := by omega
    have : i > 0 := by
      rcases Nat.eq_zero_or_pos i with h0 | h0
      · rw [h0] at hki; omega
      · exact h0
    rw [hoffi, if_pos this, hki]
    rfl
  · rw [if_neg h1, e2]
    have hx : k - i * (b * b) - (j - i * b) * b = k - j * b := by
      rw [Nat.sub_mul, hibb]
      have := Nat.mul_le_mul_right b hibj
      omega
    show (if k - i * (b * b) - (j - i * b) * b = 0 then pure (offP f b i + (if j - i * b > 0 then P f (j * b) - offP f b i else 0))
      else selSearch B bv.data (if i > 0 ∨ j - i * b > 0 then offP f b i + (if j - i * b > 0 then P f (j * b) - offP f b i else 0) + 1
        else offP f b i + (if j - i * b > 0 then P f (j * b) - offP f b i else 0)) (k - i * (b * b) - (j - i * b) * b) : Res Nat) = _
    rw [hx]
    -- the boundary position
    have hpos : offP f b i + (if j - i * b > 0 then P f (j * b) - offP f b i else 0) = if j > 0 then P f (j * b) else 0 := by
      by_cases h0 : j - i * b > 0
      · have hjpos : j > 0 := by omega
        rw [if_pos h0, if_pos hjpos]
        have : offP f b i ≤ P f (j * b) := by
          rw [hoffi]; split
          · rename_i hi0
            exact (hPlt _ (Nat.mul_pos hi0 hbb) hik).1.mono (hPlt _ (Nat.mul_pos hjpos hb) hjk).1 (by
              have := Nat.mul_le_mul_right b hibj
              omega)
          · omega
        omega
      · rw [if_neg h0, hoffi]
        have hjb : j = i * b := by omega
        by_cases hi0 : i > 0
        · rw [if_pos hi0, if_pos (by rw [hjb]; exact Nat.mul_pos hi0 hb), hjb, hibb]; rfl
        · rw [if_neg hi0, if_neg (by rw [hjb, show i = 0 by omega]; simp)]
    have hcond : (i > 0 ∨ j - i * b > 0) ↔ j > 0 := by
      constructor
      · rintro (h0 | h0)
        · have := Nat.mul_pos h0 hb; omega
        · omega
      · intro h0
        by_cases hi0 : i > 0
        · exact Or.inl hi0
        · right
          rw [show i = 0 by omega]; simpa using h0
    rw [hpos]
    by_cases h2 : k - j * b = 0
    · rw [if_pos h2]
      have hkj : k = j * b := by omega
      have : j > 0 := by
        rcases Nat.eq_zero_or_pos j with h0 | h0
        · rw [h0] at hkj; omega
        · exact h0
      rw [if_pos this, hkj]; rfl
    · rw [if_neg h2]
      have hC : cnt f (if i > 0 ∨ j - i * b > 0 then (if j > 0 then P f (j * b) else 0) + 1 else (if j > 0 then P f (j * b) else 0)) = j * b := by
        by_cases h0 : j > 0
        · rw [if_pos (hcond.mpr h0), if_pos h0, cnt_succ]
          have := (hPlt _ (Nat.mul_pos h0 hb) hjk).1
          rw [this.1]
          have := this.2
          simp only [if_true]; omega
        · rw [if_neg (fun hh => h0 (hcond.mp hh)), if_neg h0, show j = 0 by omega]; simp
      rw [hf] at hC ⊢
      rw [hf] at hk hcn
      refine selSearch_ok B g hB bv.data h.words _ _ k (by omega) (by rw [hC]; omega) ?_
      rw [hlen]; omega

theorem select_beyond (B : Basic) (f : Nat → Bool) (bv : BV) (S : Select) (hS : Built f bv S) (k : Nat)
    (hk : cnt f (64 * idivCeil bv.n 64) < k) : S.select B k = .ok bv.n := by
  rw [Select.select, hS.max, if_pos hk, hS.hbv]
  rfl

end RS
end Tdc
