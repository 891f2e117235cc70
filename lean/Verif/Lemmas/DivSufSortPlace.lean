import Verif.Lemmas.DivSufSortScan

/-! # Induced sorting: buckets and placement of the B* suffixes -/

namespace Tdc.DSS

variable {cell : Int → Int} {n : Nat} {ch : Nat → Nat} {lt : Nat → Nat → Prop}

/-- type B, not B*, with two first characters -/
noncomputable def nsB (n : Nat) (ch : Nat → Nat) (lt : Nat → Nat → Prop) (a b : Nat) : Nat :=
  cnt n (fun j => ch j = a ∧ ch (j + 1) = b ∧ tB lt j ∧ tB lt (j + 1))

/-- B* with two first characters -/
noncomputable def stP (n : Nat) (ch : Nat → Nat) (lt : Nat → Nat → Prop) (a b : Nat) : Nat :=
  cnt n (fun j => ch j = a ∧ ch (j + 1) = b ∧ star lt j)

/-- B* with smaller first characters -/
noncomputable def stB (n : Nat) (ch : Nat → Nat) (lt : Nat → Nat → Prop) (a b : Nat) : Nat :=
  cnt n (fun j => (ch j < a ∨ ch j = a ∧ ch (j + 1) < b) ∧ star lt j)

/-- rank among the B* suffixes -/
noncomputable def rkS (n : Nat) (lt : Nat → Nat → Prop) (i : Nat) : Nat := cnt n (fun j => star lt j ∧ lt j i)

/-- number of type A suffixes with a first character -/
noncomputable def nA (n : Nat) (ch : Nat → Nat) (lt : Nat → Nat → Prop) (a : Nat) : Nat := cnt n (fun j => ch j = a ∧ ¬ tB lt j)

theorem stB_succ (a b : Nat) : stB n ch lt a (b + 1) = stB n ch lt a b + stP n ch lt a b := by
  unfold stB stP
  refine cnt_split (fun j _ => ?_) (fun j _ h1 h2 => by omega)
  by_cases h : star lt j
  · simp only [h, and_true]; omega
  · simp [h]

theorem Txt.star_lt {T : List UInt8} (X : Txt cell n ch lt T) {i : Nat} (hi : i < n) (h : star lt i) : i + 1 < n ∧ ch i < ch (i + 1) := by
  have h1 := X.O.tB_lt hi h.1
  exact ⟨h1, (X.O.pred_A h1 h.2).mp h.1⟩

theorem Txt.stB_next {T : List UInt8} (X : Txt cell n ch lt T) (a : Nat) : stB n ch lt a 256 = stB n ch lt (a + 1) (a + 2) := by
  unfold stB
  refine cnt_congr (fun j hj => ?_)
  by_cases h : star lt j
  · have h1 := X.star_lt hj h
    have h2 := X.lt256 (j + 1)
    simp only [h, and_true]
    omega
  · simp [h]

theorem Txt.stB_first {T : List UInt8} (X : Txt cell n ch lt T) : stB n ch lt 0 1 = 0 := by
  unfold stB
  refine cnt_zero (fun j hj h => ?_)
  have h1 := X.star_lt hj h.2
  omega

/-! ### Bucket boundaries -/

theorem starts1_spec {T : List UInt8} (X : Txt cell n ch lt T) (c0 : Nat) (h0 : c0 < 256) : ∀ (k c1 : Nat) (i j : Int) (B : Nat → Int), c1 + k = 256 → c0 < c1 →
    (∀ b, c1 ≤ b → b < 256 → B (bS c0 b) = stP n ch lt c0 b ∧ B (bB c0 b) = nsB n ch lt c0 b) → j = stB n ch lt c0 c1 →
    ∃ B', starts1 c0 k c1 i j B = (i + cnt n (fun j => ch j = c0 ∧ c1 ≤ ch (j + 1) ∧ tB lt j ∧ tB lt (j + 1)), (stB n ch lt c0 256 : Int), B') ∧
      (∀ b, c1 ≤ b → b < 256 → B' (bS c0 b) = stB n ch lt c0 (b + 1)) ∧
      (∀ x, (∀ b, c1 ≤ b → b < 256 → x ≠ bS c0 b) → B' x = B x)
  | 0, c1, i, j, B, hk, h1, hB, hj => by
    refine ⟨B, ?_, fun b hb hb' => by omega, fun _ _ => rfl⟩
    unfold starts1
    rw [cnt_zero, hj]
    · obtain rfl : c1 = 256 := by omega
      simp
    · intro j hj h
      have := X.lt256 (j + 1)
      omega
  | k + 1, c1, i, j, B, hk, h1, hB, hj => by
    have hb1 := hB c1 (Nat.le_refl _) (by omega)
    obtain ⟨B', e1, e2, e3⟩ := starts1_spec X c0 h0 k (c1 + 1) (i + B (bB c0 c1)) (j + B (bS c0 c1)) (upd B (bS c0 c1) (j + B (bS c0 c1)))
      (by omega) (by omega) (fun b hb hb' => by
        have e1 : bS c0 b ≠ bS c0 c1 := by
          show bB b c0 ≠ bB c1 c0
          rw [Ne, bB_inj hb' (by omega)]; omega
        have e2 : bB c0 b ≠ bS c0 c1 := bB_ne_bS h0 (by omega) (by omega) h1
        unfold upd
        rw [if_neg e1, if_neg e2]
        exact hB b (by omega) hb') (by rw [stB_succ, hj, hb1.1]; push_cast; rfl)
    refine ⟨B', ?_, ?_, ?_⟩
    · unfold starts1
      dsimp only
      rw [e1, hb1.2]
      have := cnt_split (n := n) (P := fun j => ch j = c0 ∧ c1 ≤ ch (j + 1) ∧ tB lt j ∧ tB lt (j + 1))
        (Q := fun j => ch j = c0 ∧ ch (j + 1) = c1 ∧ tB lt j ∧ tB lt (j + 1))
        (R := fun j => ch j = c0 ∧ c1 + 1 ≤ ch (j + 1) ∧ tB lt j ∧ tB lt (j + 1)) (fun j _ => by
          by_cases h : tB lt j ∧ tB lt (j + 1)
          · simp only [h, and_true]; omega
          · simp only [h, and_false, or_self]) (fun j _ h2 h3 => by omega)
      rw [this]
      unfold nsB
      push_cast
      rw [Int.add_assoc]
    · intro b hb hb'
      by_cases h : b = c1
      · subst h
        rw [e3 _ (fun b' h2 h3 => by
          show bB b c0 ≠ bB b' c0
          rw [Ne, bB_inj hb' h3]; omega)]
        unfold upd
        rw [if_pos rfl, stB_succ, hj, hb1.1]; push_cast; rfl
      · exact e2 b (by omega) hb'
    · intro x hx
      rw [e3 x (fun b h2 h3 => hx b (by omega) h3)]
      unfold upd
      rw [if_neg (hx c1 (Nat.le_refl _) (by omega))]

theorem Txt.sA_step {T : List UInt8} (X : Txt cell n ch lt T) (c : Nat) : sA n ch (c + 1) + stB n ch lt c (c + 1) = sA n ch c + nA n ch lt c + nsB n ch lt c c +
    cnt n (fun j => ch j = c ∧ c + 1 ≤ ch (j + 1) ∧ tB lt j ∧ tB lt (j + 1)) + stB n ch lt c 256 := by
  have h1 := sA_succ n ch c
  have h2 := nB_le n ch lt c
  have h3 : nB n ch lt c = nsB n ch lt c c + cnt n (fun j => ch j = c ∧ c + 1 ≤ ch (j + 1) ∧ tB lt j) := by
    unfold nB nsB
    refine cnt_split (fun j hj => ?_) (fun j _ h1 h2 => by omega)
    constructor
    · rintro ⟨h1, h2⟩
      have h3 := X.O.tB_lt hj h2
      rcases (X.O.tB_step h3).mp h2 with h4 | ⟨h4, h5⟩
      · exact Or.inr ⟨h1, by omega, h2⟩
      · exact Or.inl ⟨h1, by omega, h2, h5⟩
    · rintro (⟨h1, h2, h3, h4⟩ | ⟨h1, h2, h3⟩)
      · exact ⟨h1, h3⟩
      · exact ⟨h1, h3⟩
  have h4 : cnt n (fun j => ch j = c ∧ c + 1 ≤ ch (j + 1) ∧ tB lt j) = cnt n (fun j => ch j = c ∧ c + 1 ≤ ch (j + 1) ∧ tB lt j ∧ tB lt (j + 1)) +
      cnt n (fun j => ch j = c ∧ star lt j) := by
    refine cnt_split (fun j hj => ?_) (fun j _ h1 h2 => h2.2.2 h1.2.2.2)
    constructor
    · rintro ⟨h1, h2, h3⟩
      by_cases h5 : tB lt (j + 1)
      · exact Or.inl ⟨h1, h2, h3, h5⟩
      · exact Or.inr ⟨h1, h3, h5⟩
    · rintro (⟨h1, h2, h3, h4⟩ | ⟨h1, h2⟩)
      · exact ⟨h1, h2, h3⟩
      · have := X.star_lt hj h2
        exact ⟨h1, by omega, h2.1⟩
  have h5 : stB n ch lt c 256 = stB n ch lt c (c + 1) + cnt n (fun j => ch j = c ∧ star lt j) := by
    unfold stB
    refine cnt_split (fun j hj => ?_) (fun j hj h1 h2 => by
      have := X.star_lt hj h2.2
      omega)
    by_cases h : star lt j
    · have := X.star_lt hj h
      have := X.lt256 (j + 1)
      simp only [h, and_true]
      omega
    · simp [h]
  unfold nA
  omega

/-- The buckets after the calculation of the boundaries. -/
theorem starts_spec {T : List UInt8} (X : Txt cell n ch lt T) : ∀ (k c0 : Nat) (i j : Int) (A B : Nat → Int), c0 + k = 256 →
    (∀ a, a < 256 → A a = if a < c0 then (sA n ch a : Int) else nA n ch lt a) →
    (∀ a b, a ≤ b → b < 256 → B (bB a b) = nsB n ch lt a b) →
    (∀ a b, a < b → b < 256 → B (bS a b) = if a < c0 then (stB n ch lt a (b + 1) : Int) else stP n ch lt a b) →
    i + j = sA n ch c0 → j = stB n ch lt c0 (c0 + 1) →
    ∃ A' B', starts k c0 i j A B = (A', B') ∧ (∀ a, a < 256 → A' a = sA n ch a) ∧ (∀ a b, a ≤ b → b < 256 → B' (bB a b) = nsB n ch lt a b) ∧
      (∀ a b, a < b → b < 256 → B' (bS a b) = stB n ch lt a (b + 1))
  | 0, c0, i, j, A, B, hk, hA, hB, hS, hi, hj => by
    refine ⟨A, B, rfl, fun a ha => ?_, hB, fun a b hab hb => ?_⟩
    · rw [hA a ha, if_pos (by omega)]
    · rw [hS a b hab hb, if_pos (by omega)]
  | k + 1, c0, i, j, A, B, hk, hA, hB, hS, hi, hj => by
    have hbb := hB c0 c0 (Nat.le_refl _) (by omega)
    have haa := hA c0 (by omega)
    rw [if_neg (by omega)] at haa
    obtain ⟨B', e1, e2, e3⟩ := starts1_spec X c0 (by omega) k (c0 + 1) (i + A c0 + B (bB c0 c0)) j B (by omega) (by omega)
      (fun b hb hb' => ⟨by rw [hS c0 b (by omega) hb', if_neg (by omega)], hB c0 b (by omega) hb'⟩) hj
    have hstep := X.sA_step c0
    unfold starts
    dsimp only
    rw [e1]
    dsimp only
    refine starts_spec X k (c0 + 1) _ _ _ B' (by omega) ?_ ?_ ?_ (by omega) (by rw [X.stB_next])
    · intro a ha
      unfold upd
      by_cases h : a = c0
      · subst h
        rw [if_pos rfl, if_pos (by omega), hi]
      · rw [if_neg h, hA a ha]
        by_cases h' : a < c0
        · rw [if_pos h', if_pos (by omega)]
        · rw [if_neg h', if_neg (by omega)]
    · intro a b hab hb
      rw [e3 _ (fun b' h2 h3 => bB_ne_bS (by omega) h3 hab (by omega)), hB a b hab hb]
    · intro a b hab hb
      by_cases h : a = c0
      · subst h
        rw [if_pos (by omega)]
        exact e2 b (by omega) hb
      · rw [e3 _ (fun b' h2 h3 => by
          show bB b a ≠ bB b' c0
          rw [Ne, bB_inj hb h3]; omega), hS a b hab hb]
        by_cases h' : a < c0
        · rw [if_pos h', if_pos (by omega)]
        · rw [if_neg h', if_neg (by omega)]

/-! ### Lists of positions -/

theorem countP_eq_cnt {l : List Nat} (hnd : l.Nodup) {Q : Nat → Prop} (hm : ∀ x, x ∈ l ↔ x < n ∧ Q x) (P : Nat → Bool) :
    l.countP P = cnt n (fun x => Q x ∧ P x = true) := by
  classical
  unfold cnt
  rw [List.countP_eq_length_filter, ← List.toFinset_card_of_nodup (hnd.filter _)]
  congr 1
  ext x
  simp only [List.mem_toFinset, List.mem_filter, Finset.mem_filter, Finset.mem_range]
  rw [hm x]
  tauto

theorem spread_spec {T : List UInt8} (X : Txt cell n ch lt T) : ∀ (l : List Nat) (B : Nat → Int), (∀ t ∈ l, t + 1 < n) →
    ∃ B', spread T l B = .ok B' ∧ ∀ x, B' x = B x - l.countP (fun t => decide (bS (ch t) (ch (t + 1)) = x))
  | [], B, _ => ⟨B, rfl, fun x => by simp⟩
  | t :: ts, B, h => by
    have ht := h t (by simp)
    obtain ⟨B', e1, e2⟩ := spread_spec X ts (upd B (bS (ch t) (ch (t + 1))) (B (bS (ch t) (ch (t + 1))) - 1)) (fun u hu => h u (by simp [hu]))
    refine ⟨B', ?_, fun x => ?_⟩
    · unfold spread
      have : (t : Int) + 1 = ((t + 1 : Nat) : Int) := by omega
      rw [X.get t (by omega), bind_ok, this, X.get (t + 1) ht, bind_ok, e1]
    · rw [e2, List.countP_cons]
      unfold upd
      by_cases hx : x = bS (ch t) (ch (t + 1))
      · subst hx
        rw [if_pos rfl]
        simp
        omega
      · rw [if_neg hx, if_neg (by simpa using fun h => hx h.symm)]
        rfl

/-- The B* buckets hold their start points after the distribution. -/
theorem spread_stars {T : List UInt8} (X : Txt cell n ch lt T) {l : List Nat} (hnd : l.Nodup) (hm : ∀ x, x ∈ l ↔ x < n ∧ star lt x) {B : Nat → Int}
    (hB : ∀ a b, a ≤ b → b < 256 → B (bB a b) = nsB n ch lt a b) (hS : ∀ a b, a < b → b < 256 → B (bS a b) = stB n ch lt a (b + 1)) :
    ∃ B', spread T l B = .ok B' ∧ (∀ a b, a ≤ b → b < 256 → B' (bB a b) = nsB n ch lt a b) ∧
      (∀ a b, a < b → b < 256 → B' (bS a b) = stB n ch lt a b) := by
  obtain ⟨B', e1, e2⟩ := spread_spec X l B (fun t ht => (X.star_lt ((hm t).mp ht).1 ((hm t).mp ht).2).1)
  refine ⟨B', e1, ?_, ?_⟩
  · intro a b hab hb
    rw [e2, hB a b hab hb, List.countP_eq_zero.mpr]
    · simp
    · intro t ht
      have h1 := (hm t).mp ht
      have h2 := X.star_lt h1.1 h1.2
      simp only [decide_eq_true_eq]
      exact (bB_ne_bS (by omega) (X.lt256 _) hab h2.2).symm
  · intro a b hab hb
    rw [e2, hS a b hab hb, countP_eq_cnt hnd hm, stB_succ]
    have : cnt n (fun x => star lt x ∧ decide (bS (ch x) (ch (x + 1)) = bS a b) = true) = stP n ch lt a b := by
      unfold stP
      refine cnt_congr (fun j hj => ?_)
      simp only [decide_eq_true_eq]
      have : bS (ch j) (ch (j + 1)) = bS a b ↔ ch (j + 1) = b ∧ ch j = a := bB_inj (X.lt256 _) hb
      rw [this]
      tauto
    rw [this]
    push_cast
    omega

/-! ### Ranks among the B* suffixes -/

theorem Txt.rkS_lt {T : List UInt8} (X : Txt cell n ch lt T) {x : Nat} (hx : x < n) (hs : star lt x) : rkS n lt x < cnt n (star lt) := by
  have h1 := cnt_insert (n := n) (P := fun j => (star lt j ∧ lt j x) ∨ j = x) (Q := fun j => star lt j ∧ lt j x) hx (fun h => X.O.irr _ h.2)
    (fun j _ => Iff.rfl)
  have h2 := cnt_mono (n := n) (P := fun j => (star lt j ∧ lt j x) ∨ j = x) (Q := star lt) (fun j _ h => by
    rcases h with h | rfl
    · exact h.1
    · exact hs)
  unfold rkS
  omega

theorem Txt.rkS_mono {T : List UInt8} (X : Txt cell n ch lt T) {x y : Nat} (hx : x < n) (hs : star lt x) (h : lt x y) : rkS n lt x < rkS n lt y := by
  have h1 := cnt_insert (n := n) (P := fun j => (star lt j ∧ lt j x) ∨ j = x) (Q := fun j => star lt j ∧ lt j x) hx (fun h => X.O.irr _ h.2)
    (fun j _ => Iff.rfl)
  have h2 := cnt_mono (n := n) (P := fun j => (star lt j ∧ lt j x) ∨ j = x) (Q := fun j => star lt j ∧ lt j y) (fun j _ h' => by
    rcases h' with h' | rfl
    · exact ⟨h'.1, X.O.trans _ _ _ h'.2 h⟩
    · exact ⟨hs, h⟩)
  unfold rkS
  omega

theorem Txt.rkS_inj {T : List UInt8} (X : Txt cell n ch lt T) {x y : Nat} (hx : x < n) (hsx : star lt x) (hy : y < n) (hsy : star lt y)
    (h : rkS n lt x = rkS n lt y) : x = y := by
  rcases X.O.tot x y (by omega) (by omega) with h1 | h1 | h1
  · have := X.rkS_mono hx hsx h1; omega
  · exact h1
  · have := X.rkS_mono hy hsy h1; omega

theorem Txt.rkS_surj {T : List UInt8} (X : Txt cell n ch lt T) {r : Nat} (hr : r < cnt n (star lt)) : ∃ x, x < n ∧ star lt x ∧ rkS n lt x = r := by
  classical
  have h := Finset.surjOn_of_injOn_of_card_le (s := (Finset.range n).filter (star lt)) (t := Finset.range (cnt n (star lt))) (rkS n lt)
    (fun x hx => by
      simp only [Finset.coe_filter, Finset.mem_range, Set.mem_ofPred_eq] at hx
      simpa using X.rkS_lt hx.1 hx.2)
    (fun x hx y hy h => by
      simp only [Finset.coe_filter, Finset.mem_range, Set.mem_ofPred_eq] at hx hy
      exact X.rkS_inj hx.1 hx.2 hy.1 hy.2 h)
    (by rw [Finset.card_range]; unfold cnt; exact le_of_eq (by congr))
  obtain ⟨x, hx, e⟩ := h (show r ∈ (Finset.range (cnt n (star lt)) : Set Nat) by simpa using hr)
  simp only [Finset.coe_filter, Finset.mem_range, Set.mem_ofPred_eq] at hx
  exact ⟨x, hx.1, hx.2, e⟩

theorem rkS_le_rk (x : Nat) : rkS n lt x ≤ rk n lt x := cnt_mono (fun _ _ h => h.2)

/-- order and first two characters -/
theorem Txt.pair_lt {T : List UInt8} (X : Txt cell n ch lt T) {x y : Nat} (hx : x + 1 < n) (hy : y + 1 < n)
    (h : ch x < ch y ∨ ch x = ch y ∧ ch (x + 1) < ch (y + 1)) : lt x y := by
  rw [X.O.step x y (by omega) (by omega)]
  rcases h with h | ⟨h1, h2⟩
  · exact Or.inl h
  · exact Or.inr ⟨h1, (X.O.step _ _ hx hy).mpr (Or.inl h2)⟩

theorem Txt.rkS_pair {T : List UInt8} (X : Txt cell n ch lt T) {x : Nat} (hx : x < n) (hs : star lt x) (a b : Nat) :
    rkS n lt x < stB n ch lt a b ↔ (ch x < a ∨ ch x = a ∧ ch (x + 1) < b) := by
  have hx1 := (X.star_lt hx hs).1
  constructor
  · intro h
    by_contra hc
    have := cnt_mono (n := n) (P := fun j => (ch j < a ∨ ch j = a ∧ ch (j + 1) < b) ∧ star lt j) (Q := fun j => star lt j ∧ lt j x) (fun j hj h' =>
      ⟨h'.2, X.pair_lt (X.star_lt hj h'.2).1 hx1 (by omega)⟩)
    unfold rkS stB at h
    omega
  · intro h
    have h1 := cnt_insert (n := n) (P := fun j => (star lt j ∧ lt j x) ∨ j = x) (Q := fun j => star lt j ∧ lt j x) hx (fun h => X.O.irr _ h.2)
      (fun j _ => Iff.rfl)
    have h2 := cnt_mono (n := n) (P := fun j => (star lt j ∧ lt j x) ∨ j = x) (Q := fun j => (ch j < a ∨ ch j = a ∧ ch (j + 1) < b) ∧ star lt j)
      (fun j hj h' => by
        rcases h' with h' | rfl
        · refine ⟨?_, h'.1⟩
          by_contra hc
          have h3 : ¬ (ch x < ch j ∨ ch x = ch j ∧ ch (x + 1) < ch (j + 1)) := fun h4 =>
            X.O.asym h'.2 (X.pair_lt hx1 (X.star_lt hj h'.1).1 h4)
          omega
        · exact ⟨h, hs⟩)
    unfold rkS stB
    omega

/-- the rank of a B* suffix from its rank among the B* suffixes -/
theorem Txt.rk_star {T : List UInt8} (X : Txt cell n ch lt T) {x : Nat} (hx : x < n) (hs : star lt x) :
    (rk n lt x : Int) = eB n ch (ch x) (ch (x + 1)) - nsB n ch lt (ch x) (ch (x + 1)) - (stB n ch lt (ch x) (ch (x + 1) + 1) - 1 - rkS n lt x) := by
  obtain ⟨hx1, hcx⟩ := X.star_lt hx hs
  rw [X.O.rk_right hx1]
  have h1 : cnt n (fun j => j + 1 < n ∧ ch j = ch x ∧ ch (j + 1) = ch (x + 1) ∧ lt (x + 1) (j + 1)) = nsB n ch lt (ch x) (ch (x + 1)) +
      cnt n (fun j => (ch j = ch x ∧ ch (j + 1) = ch (x + 1)) ∧ star lt j ∧ lt x j) := by
    unfold nsB
    refine cnt_split (fun j hj => ?_) (fun j _ h1 h2 => h2.2.1.2 h1.2.2.2)
    constructor
    · rintro ⟨h1, h2, h3, h4⟩
      have hB : tB lt j := (X.O.tB_step h1).mpr (Or.inl (by omega))
      by_cases h5 : tB lt (j + 1)
      · exact Or.inl ⟨h2, h3, hB, h5⟩
      · exact Or.inr ⟨⟨h2, h3⟩, ⟨hB, h5⟩, (X.O.step x j hx hj).mpr (Or.inr ⟨h2.symm, h4⟩)⟩
    · rintro (⟨h1, h2, h3, h4⟩ | ⟨⟨h1, h2⟩, h3, h4⟩)
      · have hj1 := X.O.tB_lt hj h3
        exact ⟨hj1, h1, h2, X.O.A_lt_B n (x + 1) (j + 1) (by omega) hx1 hj1 h2.symm hs.2 h4⟩
      · refine ⟨(X.star_lt hj h3).1, h1, h2, ?_⟩
        rcases (X.O.step x j hx hj).mp h4 with h5 | h5
        · omega
        · exact h5.2
  have h2 : stB n ch lt (ch x) (ch (x + 1) + 1) = rkS n lt x + 1 + cnt n (fun j => (ch j = ch x ∧ ch (j + 1) = ch (x + 1)) ∧ star lt j ∧ lt x j) := by
    have h3 := cnt_insert (n := n) (P := fun j => (star lt j ∧ lt j x) ∨ j = x) (Q := fun j => star lt j ∧ lt j x) hx (fun h => X.O.irr _ h.2)
      (fun j _ => Iff.rfl)
    have h4 : rkS n lt x = cnt n (fun j => star lt j ∧ lt j x) := rfl
    rw [h4, ← h3]
    unfold stB
    refine cnt_split (fun j hj => ?_) (fun j _ h1 h2 => ?_)
    · constructor
      · rintro ⟨h5, h6⟩
        rcases X.O.tot j x (by omega) (by omega) with h7 | h7 | h7
        · exact Or.inl (Or.inl ⟨h6, h7⟩)
        · exact Or.inl (Or.inr h7)
        · refine Or.inr ⟨?_, h6, h7⟩
          have h8 : ¬ (ch j < ch x ∨ ch j = ch x ∧ ch (j + 1) < ch (x + 1)) := fun h8 => X.O.asym h7 (X.pair_lt (X.star_lt hj h6).1 hx1 h8)
          omega
      · rintro ((⟨h5, h6⟩ | rfl) | ⟨h5, h6, h7⟩)
        · have h8 : ¬ (ch x < ch j ∨ ch x = ch j ∧ ch (x + 1) < ch (j + 1)) := fun h8 => X.O.asym h6 (X.pair_lt hx1 (X.star_lt hj h5).1 h8)
          exact ⟨by omega, h5⟩
        · exact ⟨by omega, hs⟩
        · exact ⟨by omega, h6⟩
    · rcases h1 with h1 | rfl
      · exact X.O.asym h1.2 h2.2.2
      · exact X.O.irr _ h2.2.2
  rw [h1]
  omega

/-! ### Moving the B* suffixes -/

structure MInv (n : Nat) (lt : Nat → Nat → Prop) (K : Nat) (SA : List Int) : Prop where
  len : SA.length = n
  todo : ∀ x, x < n → star lt x → rkS n lt x < K → SA[rkS n lt x]? = some (init1 lt x)
  done : ∀ x, x < n → star lt x → K ≤ rkS n lt x → SA[rk n lt x]? = some (init1 lt x)

theorem moveRun_spec {T : List UInt8} (X : Txt cell n ch lt T) {a b : Nat} : ∀ (r K : Nat) (i : Int) (SA : List Int),
    K = stB n ch lt a b + r → K ≤ stB n ch lt a (b + 1) → K ≤ cnt n (star lt) → i = eB n ch a b - nsB n ch lt a b - (stB n ch lt a (b + 1) - K) →
    MInv n lt K SA →
    ∃ SA', moveRun cell r i ((K : Int) - 1) SA = .ok (i - r, (stB n ch lt a b : Int) - 1, SA') ∧ MInv n lt (stB n ch lt a b) SA'
  | 0, K, i, SA, hK, h1, h2, hi, I => by
    obtain rfl : K = stB n ch lt a b := by omega
    exact ⟨SA, by unfold moveRun; simp, I⟩
  | r + 1, K1, i, SA, hK, h1, h2, hi, I => by
    obtain ⟨K, rfl⟩ : ∃ K, K1 = K + 1 := ⟨K1 - 1, by omega⟩
    obtain ⟨x, hx, hs, hr⟩ := X.rkS_surj (r := K) (by omega)
    have p1 := (X.rkS_pair hx hs a b).not.mp (by omega)
    have p2 := (X.rkS_pair hx hs a (b + 1)).mp (by omega)
    have ha : ch x = a := by omega
    have hb : ch (x + 1) = b := by omega
    have hrk := X.rk_star hx hs
    rw [ha, hb, hr] at hrk
    have hi' : i = (rk n lt x : Nat) := by omega
    have hle := rkS_le_rk (n := n) (lt := lt) x
    have hlt := X.O.rk_lt hx
    obtain ⟨SA', e1, e2⟩ := moveRun_spec X (a := a) (b := b) r K (i - 1) (SA.set (rk n lt x) (init1 lt x)) (by omega) (by omega) (by omega) (by omega) {
      len := by rw [List.length_set]; exact I.len
      todo := fun y hy hsy h => by
        rw [List.getElem?_set_ne (by omega)]
        exact I.todo y hy hsy (by omega)
      done := fun y hy hsy h => by
        by_cases hxy : y = x
        · subst hxy
          rw [List.getElem?_set_self (by rw [I.len]; exact hlt)]
        · rw [List.getElem?_set_ne (fun h => hxy (X.O.rk_inj hy hx h.symm))]
          refine I.done y hy hsy ?_
          have : rkS n lt y ≠ K := fun h => hxy (X.rkS_inj hy hsy hx hs (by omega))
          omega }
    refine ⟨SA', ?_, e2⟩
    unfold moveRun
    have e : ((K + 1 : Nat) : Int) - 1 = (K : Int) := by omega
    have hg := I.todo x hx hs (by omega)
    rw [hr] at hg
    rw [e, sget_ok hg, bind_ok]
    rw [hi', sset_ok (X.cell1 hx) (by rw [I.len]; exact hlt), bind_ok, ← hi', e1]
    have e3 : i - 1 - (r : Int) = i - ((r + 1 : Nat) : Int) := by omega
    rw [e3]

theorem eB_pred (X : SufOrd n ch lt) (a b : Nat) (hab : a < b + 1) :
    eB n ch a b = eB n ch a (b + 1) - nsB n ch lt a (b + 1) - stP n ch lt a (b + 1) := by
  unfold eB nsB stP
  have h1 := cnt_split (n := n) (P := fun j => ch j = a ∧ j + 1 < n ∧ b < ch (j + 1)) (Q := fun j => ch j = a ∧ j + 1 < n ∧ b + 1 < ch (j + 1))
    (R := fun j => ch j = a ∧ ch (j + 1) = b + 1 ∧ tB lt j) (fun j hj => by
      constructor
      · rintro ⟨h1, h2, h3⟩
        rcases Nat.lt_or_ge (b + 1) (ch (j + 1)) with h4 | h4
        · exact Or.inl ⟨h1, h2, h4⟩
        · exact Or.inr ⟨h1, by omega, (X.tB_step h2).mpr (Or.inl (by omega))⟩
      · rintro (⟨h1, h2, h3⟩ | ⟨h1, h2, h3⟩)
        · exact ⟨h1, h2, by omega⟩
        · exact ⟨h1, X.tB_lt hj h3, by omega⟩) (fun j _ h1 h2 => by omega)
  have h2 := cnt_split (n := n) (P := fun j => ch j = a ∧ ch (j + 1) = b + 1 ∧ tB lt j)
    (Q := fun j => ch j = a ∧ ch (j + 1) = b + 1 ∧ tB lt j ∧ tB lt (j + 1)) (R := fun j => ch j = a ∧ ch (j + 1) = b + 1 ∧ star lt j) (fun j hj => by
      unfold star; tauto) (fun j _ h1 h2 => h2.2.2.2 h1.2.2.2)
  omega

theorem moveIn_spec {T : List UInt8} (X : Txt cell n ch lt T) {c0 : Nat} : ∀ (d K : Nat) (i : Int) (B : Nat → Int) (SA : List Int), c0 + d < 256 →
    K = stB n ch lt c0 (c0 + d + 1) → i = eB n ch c0 (c0 + d) →
    (∀ b, c0 < b → b ≤ c0 + d → B (bB c0 b) = nsB n ch lt c0 b ∧ B (bS c0 b) = stB n ch lt c0 b) → MInv n lt K SA →
    ∃ B' SA', moveIn cell c0 d i ((K : Int) - 1) B SA = .ok (eB n ch c0 c0, (stB n ch lt c0 (c0 + 1) : Int) - 1, B', SA') ∧
      MInv n lt (stB n ch lt c0 (c0 + 1)) SA' ∧ (∀ b, c0 < b → b ≤ c0 + d → B' (bB c0 b) = eB n ch c0 b) ∧
      (∀ x, (∀ b, c0 < b → b ≤ c0 + d → x ≠ bB c0 b) → B' x = B x)
  | 0, K, i, B, SA, hd, hK, hi, hB, I => by
    subst hK
    exact ⟨B, SA, by unfold moveIn; rw [hi]; rfl, I, fun b h1 h2 => by omega, fun _ _ => rfl⟩
  | d + 1, K, i, B, SA, hd, hK, hi, hB, I => by
    obtain ⟨hb1, hb2⟩ := hB (c0 + (d + 1)) (by omega) (Nat.le_refl _)
    have hss := stB_succ (n := n) (ch := ch) (lt := lt) c0 (c0 + (d + 1))
    have hst : stB n ch lt c0 (c0 + (d + 1) + 1) ≤ cnt n (star lt) := cnt_mono (fun j _ h => h.2)
    obtain ⟨SA1, e1, e2⟩ := moveRun_spec X (a := c0) (b := c0 + (d + 1)) (stP n ch lt c0 (c0 + (d + 1))) K
      (i - B (bB c0 (c0 + (d + 1)))) SA (by omega) (by omega) (by omega) (by omega) I
    have hne : bS c0 (c0 + (d + 1)) ≠ bB c0 (c0 + (d + 1)) := (bB_ne_bS (by omega) (by omega) (by omega) (by omega)).symm
    have hpred := eB_pred X.O c0 (c0 + d) (by omega)
    obtain ⟨B2, SA2, f1, f2, f3, f4⟩ := moveIn_spec X d (stB n ch lt c0 (c0 + (d + 1))) (eB n ch c0 (c0 + d))
      (upd B (bB c0 (c0 + (d + 1))) i) SA1 (by omega) rfl rfl (fun b h1 h2 => by
        unfold upd
        rw [if_neg (by rw [bB_inj (by omega) (by omega)]; omega),
          if_neg (bB_ne_bS (by omega) (by omega) (by omega) h1).symm]
        exact hB b h1 (by omega)) e2
    refine ⟨B2, SA2, ?_, f2, ?_, ?_⟩
    · unfold moveIn
      dsimp only
      have hu : upd B (bB c0 (c0 + (d + 1))) i (bS c0 (c0 + (d + 1))) = stB n ch lt c0 (c0 + (d + 1)) := by
        unfold upd
        rw [if_neg hne, hb2]
      have hr : ((K : Int) - 1 - upd B (bB c0 (c0 + (d + 1))) i (bS c0 (c0 + (d + 1))) + 1).toNat = stP n ch lt c0 (c0 + (d + 1)) := by
        rw [hu]; omega
      rw [hr, e1, bind_ok]
      dsimp only
      have hi2 : i - B (bB c0 (c0 + (d + 1))) - (stP n ch lt c0 (c0 + (d + 1)) : Nat) = eB n ch c0 (c0 + d) := by
        rw [hpred, hb1, hi]; rfl
      rw [hi2, f1]
    · intro b h1 h2
      by_cases h : b = c0 + (d + 1)
      · subst h
        rw [f4 _ (fun b' h3 h4 => by rw [Ne, bB_inj (by omega) (by omega)]; omega)]
        unfold upd
        rw [if_pos rfl, hi]
      · exact f3 b h1 (by omega)
    · intro x hx
      rw [f4 x (fun b h1 h2 => hx b h1 (by omega))]
      unfold upd
      rw [if_neg (hx _ (by omega) (Nat.le_refl _))]

theorem moveAll_spec {T : List UInt8} (X : Txt cell n ch lt T) {A : Nat → Int} (hA : ∀ c, c < 256 → A c = sA n ch c) :
    ∀ (d K : Nat) (B : Nat → Int) (SA : List Int), d ≤ 255 → K = stB n ch lt d (d + 1) →
    (∀ a b, a ≤ b → b < 256 → a < d → B (bB a b) = nsB n ch lt a b) →
    (∀ a b, a < b → b < 256 → a < d → B (bS a b) = stB n ch lt a b) →
    (∀ a b, a ≤ b → b < 255 → d ≤ a → B (bB a b) = eB n ch a b) →
    (∀ c, c < 255 → d ≤ c → B (bS c (c + 1)) = (sA n ch (c + 1) : Int) - nB n ch lt c) → MInv n lt K SA →
    ∃ B' SA', moveAll cell A d ((K : Int) - 1) B SA = .ok (B', SA') ∧ MInv n lt 0 SA' ∧ (∀ a b, a ≤ b → b < 255 → B' (bB a b) = eB n ch a b) ∧
      (∀ c, c < 255 → B' (bS c (c + 1)) = (sA n ch (c + 1) : Int) - nB n ch lt c)
  | 0, K, B, SA, hd, hK, _, _, hE, hS, I => by
    rw [X.stB_first] at hK
    subst hK
    exact ⟨B, SA, rfl, I, fun a b h1 h2 => hE a b h1 h2 (Nat.zero_le _), fun c h => hS c h (Nat.zero_le _)⟩
  | c0 + 1, K, B, SA, hd, hK, hN, hP, hE, hS, I => by
    have hnext := X.stB_next c0
    have e255 : eB n ch c0 255 = (sA n ch (c0 + 1) : Int) - 1 := by
      unfold eB
      rw [cnt_zero]
      · simp
      · intro j _ h
        have := X.lt256 (j + 1)
        omega
    obtain ⟨B1, SA1, f1, f2, f3, f4⟩ := moveIn_spec X (c0 := c0) (255 - c0) K (A (c0 + 1) - 1) B SA (by omega)
      (by
        have : c0 + (255 - c0) + 1 = 256 := by omega
        rw [this, hnext]; omega)
      (by
        have : c0 + (255 - c0) = 255 := by omega
        rw [this, e255, hA _ (by omega)])
      (fun b h1 h2 => ⟨hN c0 b (by omega) (by omega) (by omega), hP c0 b h1 (by omega) (by omega)⟩) I
    unfold moveAll
    rw [f1, bind_ok]
    dsimp only
    have hns : B1 (bB c0 c0) = nsB n ch lt c0 c0 := by
      rw [f4 _ (fun b h1 h2 => by rw [Ne, bB_inj (by omega) (by omega)]; omega)]
      exact hN c0 c0 (Nat.le_refl _) (by omega) (by omega)
    have hcc : bB c0 c0 ≠ bS c0 (c0 + 1) := bB_ne_bS (by omega) (by omega) (Nat.le_refl _) (by omega)
    have hnB : (nB n ch lt c0 : Int) = (sA n ch (c0 + 1) : Int) - 1 - eB n ch c0 c0 + nsB n ch lt c0 c0 := by
      unfold nB eB nsB
      have := cnt_split (n := n) (P := fun j => ch j = c0 ∧ tB lt j) (Q := fun j => ch j = c0 ∧ j + 1 < n ∧ c0 < ch (j + 1))
        (R := fun j => ch j = c0 ∧ ch (j + 1) = c0 ∧ tB lt j ∧ tB lt (j + 1)) (fun j hj => by
          constructor
          · rintro ⟨h1, h2⟩
            have h3 := X.O.tB_lt hj h2
            rcases (X.O.tB_step h3).mp h2 with h4 | ⟨h4, h5⟩
            · exact Or.inl ⟨h1, h3, by omega⟩
            · exact Or.inr ⟨h1, by omega, h2, h5⟩
          · rintro (⟨h1, h2, h3⟩ | ⟨h1, h2, h3, h4⟩)
            · exact ⟨h1, (X.O.tB_step h2).mpr (Or.inl (by omega))⟩
            · exact ⟨h1, h3⟩) (fun j _ h1 h2 => by omega)
      omega
    refine moveAll_spec X hA c0 (stB n ch lt c0 (c0 + 1)) _ SA1 (by omega) rfl ?_ ?_ ?_ ?_ f2
    · intro a b h1 h2 h3
      unfold upd
      rw [if_neg (by rw [bB_inj (by omega) (by omega)]; omega), if_neg (bB_ne_bS (by omega) (by omega) h1 (by omega)),
        f4 _ (fun b' h4 h5 => by rw [Ne, bB_inj (by omega) (by omega)]; omega)]
      exact hN a b h1 h2 (by omega)
    · intro a b h1 h2 h3
      unfold upd
      rw [if_neg (bB_ne_bS (by omega) h2 (Nat.le_refl _) h1).symm,
        if_neg (by show bB b a ≠ bB (c0 + 1) c0; rw [Ne, bB_inj (by omega) (by omega)]; omega),
        f4 _ (fun b' h4 h5 => (bB_ne_bS (by omega) h2 (by omega) h1).symm)]
      exact hP a b h1 h2 (by omega)
    · intro a b h1 h2 h3
      unfold upd
      by_cases h : a = c0
      · subst h
        by_cases h' : b = a
        · subst h'
          rw [if_pos rfl]
        · rw [if_neg (by rw [bB_inj (by omega) (by omega)]; omega), if_neg (bB_ne_bS (by omega) (by omega) h1 (by omega))]
          exact f3 b (by omega) (by omega)
      · rw [if_neg (by rw [bB_inj (by omega) (by omega)]; omega), if_neg (bB_ne_bS (by omega) (by omega) h1 (by omega)),
          f4 _ (fun b' h4 h5 => by rw [Ne, bB_inj (by omega) (by omega)]; omega)]
        exact hE a b h1 h2 (by omega)
    · intro c h1 h2
      unfold upd
      rw [if_neg (bB_ne_bS (by omega) (by omega) (Nat.le_refl _) (by omega)).symm]
      by_cases h : c = c0
      · subst h
        rw [if_pos rfl]
        omega
      · rw [if_neg (by show bB (c + 1) c ≠ bB (c0 + 1) c0; rw [Ne, bB_inj (by omega) (by omega)]; omega),
          f4 _ (fun b' h4 h5 => (bB_ne_bS (by omega) (by omega) (by omega) (by omega)).symm)]
        exact hS c h1 (by omega)

end Tdc.DSS
