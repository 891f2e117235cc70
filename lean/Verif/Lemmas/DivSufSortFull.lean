import Verif.Lemmas.DivSufSortMid
import Verif.Lemmas.DivSufSortLoop

/-! # From an arbitrary buffer to the ranks of the B* suffixes -/

namespace Tdc

open DSS

variable {cell : Int → Int} {T : List UInt8}

theorem storeStars_spec {n : Nat} (hcell : ∀ v : Int, -n ≤ v → v < n → cell v = v) : ∀ (l : List Nat) (k : Nat) (SA : List Int), l.length ≤ k → k ≤ n →
    (∀ t ∈ l, t < n) → SA.length = n → ∃ SA', storeStars cell l k SA = .ok SA' ∧ SA'.length = n ∧
      (∀ (j x : Nat), l[j]? = some x → SA'[k - 1 - j]? = some (x : Int)) ∧ (∀ p, k ≤ p → SA'[p]? = SA[p]?)
  | [], k, SA, _, _, _, hl => ⟨SA, rfl, hl, fun j x h => by simp at h, fun _ _ => rfl⟩
  | t :: ts, k, SA, h1, h2, h3, hl => by
    rw [List.length_cons] at h1
    obtain ⟨k', rfl⟩ : ∃ k', k = k' + 1 := ⟨k - 1, by omega⟩
    have ht := h3 t (by simp)
    obtain ⟨SA', g1, g2, g3, g4⟩ := storeStars_spec hcell ts k' (SA.set k' (t : Int)) (by omega) (by omega) (fun x hx => h3 x (by simp [hx])) (by rw [List.length_set, hl])
    refine ⟨SA', ?_, g2, ?_, ?_⟩
    · unfold storeStars
      have e : ((k' + 1 : Nat) : Int) - 1 = (k' : Int) := by omega
      rw [e, sset_ok (hcell _ (by omega) (by omega)) (by omega), bind_ok]
      exact g1
    · intro j x hj
      match j, hj with
      | 0, hj =>
        rw [List.getElem?_cons_zero] at hj
        injection hj with hj
        subst hj
        rw [Nat.add_sub_cancel, Nat.sub_zero, g4 _ (Nat.le_refl _), List.getElem?_set_self (by omega)]
      | j + 1, hj =>
        rw [List.getElem?_cons_succ] at hj
        rw [← g3 j x hj]
        congr 1
        omega
    · intro p hp
      rw [g4 p (by omega), List.getElem?_set_ne (by omega)]

theorem dss_getD {l : List Nat} {p : Nat} (h : p < l.length) : l.getD p 0 = l[p] := by
  rw [List.getD_eq_getElem?_getD, List.getElem?_eq_getElem h]
  rfl

theorem dssLo_all : dssLo T 255 256 = (bstars T).length := by
  have X := dss_txt (cell := id) T (fun _ _ _ => rfl)
  rw [bstars_length]
  unfold dssLo stB
  refine cnt_congr (fun j hj => ?_)
  have h0 := X.lt256 j
  have h1 := X.lt256 (j + 1)
  constructor
  · exact fun h => h.2
  · exact fun h => ⟨by omega, h⟩

/-- A sorted permutation whose ranks are the last places of the groups. -/
theorem grp_of_sorted {n m : Nat} {r : Nat → Nat} {ord : List Nat} (h2 : 2 * m ≤ n) (hp : ord.Perm (List.range m)) (hs : ord.Pairwise (fun x y => r x ≤ r y))
    (he : ∀ x, x < m → r x + 1 = (List.range m).countP (fun y => decide (r y ≤ r x))) : Grp n m (fun p => ord.getD p 0) (fun p => r (ord.getD p 0)) := by
  have hl : ord.length = m := by rw [hp.length_eq, List.length_range]
  have hnd : ord.Nodup := hp.nodup_iff.mpr List.nodup_range
  have hget : ∀ p, (h : p < m) → ord.getD p 0 = ord[p]'(by omega) := fun p h => dss_getD (by omega)
  have holt : ∀ p, p < m → ord.getD p 0 < m := fun p h => by
    rw [hget p h]
    exact List.mem_range.mp (hp.mem_iff.mp (List.getElem_mem _))
  have he' : ∀ p, p < m → r (ord.getD p 0) + 1 = ord.countP (fun y => decide (r y ≤ r (ord.getD p 0))) := fun p h => by
    rw [he _ (holt p h), hp.countP_eq]
  rw [List.pairwise_iff_getElem] at hs
  have hmono : ∀ p q, p ≤ q → q < m → r (ord.getD p 0) ≤ r (ord.getD q 0) := fun p q h hq => by
    rcases Nat.lt_or_eq_of_le h with h' | h'
    · rw [hget p (by omega), hget q hq]
      exact hs p q (by omega) (by omega) h'
    · rw [h']
  refine ⟨h2, holt, ?_, ?_, ?_, ?_⟩
  · intro p q h1 h3 h
    try dsimp only at h
    rw [hget p h1, hget q h3] at h
    exact (List.Nodup.getElem_inj_iff hnd).mp h
  · intro p h
    have h1 := he' p h
    try dsimp only
    have h3 : ord.countP (fun y => decide (r y ≤ r (ord.getD p 0))) = (ord.take (p + 1)).countP (fun y => decide (r y ≤ r (ord.getD p 0))) +
        (ord.drop (p + 1)).countP (fun y => decide (r y ≤ r (ord.getD p 0))) := by
      rw [← List.countP_append, List.take_append_drop]
    have h4 : (ord.take (p + 1)).countP (fun y => decide (r y ≤ r (ord.getD p 0))) = p + 1 := by
      rw [List.countP_eq_length.mpr, List.length_take, Nat.min_eq_left (by omega)]
      intro y hy
      obtain ⟨i, hi, rfl⟩ := List.getElem_of_mem hy
      rw [List.length_take] at hi
      rw [List.getElem_take, decide_eq_true_eq]
      have := hmono i p (by omega) h
      rwa [hget i (by omega)] at this
    omega
  · intro p h
    have h1 := he' p h
    have h3 := List.countP_le_length (p := fun y => decide (r y ≤ r (ord.getD p 0))) (l := ord)
    try dsimp only
    omega
  · intro p q h h1 h3
    try dsimp only at h3 ⊢
    have h4 := he' p h
    have h5 := List.countP_le_length (p := fun y => decide (r y ≤ r (ord.getD p 0))) (l := ord)
    have hq : q < m := by omega
    have h6 := hmono p q h1 hq
    by_contra hne
    have h7 : ord.countP (fun y => decide (r y ≤ r (ord.getD p 0))) = (ord.take q).countP (fun y => decide (r y ≤ r (ord.getD p 0))) +
        (ord.drop q).countP (fun y => decide (r y ≤ r (ord.getD p 0))) := by
      rw [← List.countP_append, List.take_append_drop]
    have h8 := List.countP_le_length (p := fun y => decide (r y ≤ r (ord.getD p 0))) (l := ord.take q)
    rw [List.length_take] at h8
    have h9 : (ord.drop q).countP (fun y => decide (r y ≤ r (ord.getD p 0))) = 0 := by
      rw [List.countP_eq_zero]
      intro y hy
      obtain ⟨i, hi, rfl⟩ := List.getElem_of_mem hy
      rw [List.length_drop] at hi
      rw [List.getElem_drop, decide_eq_true_eq]
      have := hmono q (q + i) (by omega) (by omega)
      rw [hget (q + i) (by omega)] at this
      omega
    omega

/-- alone in its group: by place and by number -/
theorem sng_alone {n m : Nat} {r : Nat → Nat} {ord : List Nat} (G : Grp n m (fun p => ord.getD p 0) (fun p => r (ord.getD p 0))) (hp : ord.Perm (List.range m))
    {p x : Nat} (hx : ord[p]? = some x) : sng (fun p => r (ord.getD p 0)) m p ↔ Alone r m x := by
  have hl : ord.length = m := by rw [hp.length_eq, List.length_range]
  have hpm : p < m := by rw [← hl]; exact (List.getElem?_eq_some_iff.mp hx).1
  have hxg : ord.getD p 0 = x := by rw [List.getD_eq_getElem?_getD, hx]; rfl
  constructor
  · intro h y hy hr
    obtain ⟨q, hq, rfl⟩ := List.getElem_of_mem (hp.mem_iff.mpr (List.mem_range.mpr hy))
    have hqg : ord.getD q 0 = ord[q] := dss_getD hq
    have h1 := sng_rank G hpm h
    try dsimp only at h1
    have h2 : r (ord.getD q 0) = p := by rw [hqg, hr, ← hxg, h1]
    have h3 := G.ge q (by omega)
    try dsimp only at h3
    rcases Nat.lt_or_eq_of_le (show q ≤ p by omega) with h4 | h4
    · exfalso
      have h5 := G.const q (p - 1) (by omega) (by omega) (by omega)
      try dsimp only at h5
      exact h.1 ⟨by omega, show r (ord.getD p 0) = r (ord.getD (p - 1) 0) by omega⟩
    · rw [← hqg, h4, hxg]
  · intro h
    have hne : ∀ q, q < m → r (ord.getD q 0) = r (ord.getD p 0) → q = p := fun q hq hr => by
      have := h (ord.getD q 0) (G.olt q hq) (by rw [hr, hxg])
      exact G.inj q p hq hpm (by rw [this, hxg])
    refine ⟨fun h1 => ?_, fun h0 h1 => ?_⟩
    · have := hne (p - 1) (by omega) h1.2.symm
      have := h1.1
      omega
    · have := h1.2
      rw [Nat.add_sub_cancel] at this
      have := hne (p + 1) h0 this
      omega

/-- Everything before `trsort`: from an arbitrary array its input. -/
theorem sortStars_input (hcell : ∀ v : Int, -T.length ≤ v → v < T.length → cell v = v) {sss : SubSort} (hsss : SubSortOk T sss) (trs : RankSort) {SA : List Int}
    (hl : SA.length = T.length) (hm0 : 0 < (bstars T).length) :
    ∃ SA', sortStars cell sss trs T SA = trs SA' ∧ SA'.length = T.length ∧ RankInput (bstars T).length (bkRank T) SA' := by
  obtain ⟨est, h2m⟩ := divsufsort_bstars T
  have X := dss_txt (cell := cell) T hcell
  have hlt : ∀ x, x < (bstars T).length → bst T x < T.length := fun x hx => by have := (bst_next hx).1; omega
  -- the positions
  obtain ⟨SA1, a1, a2, a3, -⟩ := storeStars_spec hcell (bstars T).reverse T.length SA (by rw [List.length_reverse]; omega) (Nat.le_refl _)
    (fun t ht => ((mem_bstars T t).mp (List.mem_reverse.mp ht)).1) hl
  -- the buckets
  have C := countAll_spec X (by omega)
  have hs0 : sA T.length (dssCh T) 0 = 0 := cnt_zero (fun j _ h => by omega)
  obtain ⟨A, B, e1, hA, hB, hS⟩ := starts_spec X 256 0 0 0 (countAll T).A (countAll T).B rfl
    (fun a ha => by rw [if_neg (by omega), C.A]; unfold nA; simp)
    (fun a b hab hb => by rw [C.B a b hab hb]; unfold nsB; simp)
    (fun a b hab hb => by rw [if_neg (by omega), C.S a b hab hb]; unfold stP; simp)
    (by rw [hs0]; rfl) (by rw [X.stB_first]; rfl)
  have I0 : DssInv T [] B SA1 := by
    refine ⟨a2, fun x hx => ?_, fun a b hab hb => ?_, fun a b hab hb k x hk => ?_⟩
    · have p1 : T.length - (bstars T).length + x = T.length - 1 - ((bstars T).length - 1 - x) := by omega
      have p2 : (bstars T).length - 1 - ((bstars T).length - 1 - x) = x := by omega
      rw [p1]
      refine a3 ((bstars T).length - 1 - x) (bst T x) ?_
      rw [List.getElem?_reverse (by omega), p2, bst_get hx]
    · rw [hS a b hab hb, List.countP_nil]
      unfold dssLo
      simp
    · unfold dssSeg at hk
      simp at hk
  obtain ⟨B', SA2, b1, I1⟩ := spreadSA_spec hcell (dssOrder (bstars T).length) [] B SA1
    (fun x hx => List.mem_range.mp ((dssOrder_perm hm0).mem_iff.mp hx))
    (fun a b hab hb => by rw [List.nil_append, (dssOrder_perm hm0).countP_eq, dssLo_succ]) I0
  rw [List.nil_append] at I1
  have hB' : ∀ a b, a < b → b < 256 → B' (bS a b) = dssLo T a b := fun a b hab hb => by
    have h1 := I1.B a b hab hb
    rw [(dssOrder_perm hm0).countP_eq] at h1
    have h2 := dssLo_succ (T := T) a b
    omega
  have I2 : BktInv T 255 256 SA2 [] := by
    refine ⟨I1.len, I1.pa, fun a b hab hb _ k x hk => ?_, by rw [dssLo_all]; simp, fun k hk => by simp at hk, List.Pairwise.nil, List.nodup_nil, fun x hx => by simp at hx⟩
    have h1 := I1.seg a b hab hb k x hk
    rw [(dssOrder_perm hm0).countP_eq] at h1
    have h2 := dssLo_succ (T := T) a b
    have p1 : dssLo T a (b + 1) - (List.range (bstars T).length).countP (dssPair T a b) = dssLo T a b := by omega
    rw [p1] at h1
    exact h1
  -- sorting of the buckets
  obtain ⟨SA3, ord, c0, c1, d1, d2, I3⟩ := sortAll_spec hsss hm0 hB' 255 SA2 [] (by omega) I2
  rw [dssLo_all] at d1
  have hol : ord.length = (bstars T).length := by have := I3.size; omega
  have hperm : ord.Perm (List.range (bstars T).length) := by
    have hsub : ord.Subperm (List.range (bstars T).length) := List.subperm_of_subset I3.nodup (fun x hx => List.mem_range.mpr (I3.mem x hx).1)
    exact hsub.perm_of_length_le (by rw [List.length_range, hol])
  have hsorted : ord.Pairwise (fun x y => bkRank T x ≤ bkRank T y) := by
    refine List.Pairwise.imp_of_mem (fun {x y} hx hy h => ?_) I3.sorted
    have h1 := bkRank_lt (I3.mem y hy).1 (I3.mem x hx).1
    by_contra h2
    exact h (h1.mp (by omega))
  have G := grp_of_sorted (n := T.length) h2m hperm hsorted (fun x hx => bkRank_ends hx)
  have hget : ∀ p, p < (bstars T).length → ord[p]? = some (ord.getD p 0) := fun p hp => by
    rw [dss_getD (by omega : p < ord.length), List.getElem?_eq_getElem]
  have R : RInv T.length (bstars T).length (fun p => ord.getD p 0) (fun p => bkRank T (ord.getD p 0)) (bstars T).length SA3 := by
    refine ⟨I3.len, Nat.le_refl _, fun p hp => ?_, Or.inl rfl, fun p h1 h2 => by omega, fun p h1 h2 => by omega, fun p l h1 h2 h3 => by omega⟩
    have h1 := I3.cells p (by omega)
    rw [d2, Nat.zero_add] at h1
    unfold marked at h1
    rw [hget p hp, Option.map_some] at h1
    have hiff : (0 < p ∧ ord[p - 1]?.map (bkey T) = some (bkey T (ord.getD p 0))) ↔ mrk (fun p => bkRank T (ord.getD p 0)) p := by
      unfold mrk
      rw [hget (p - 1) (by omega), Option.map_some, Option.some.injEq, bkRank_eq (G.olt p hp) (G.olt (p - 1) (by omega))]
      constructor
      · exact fun h => ⟨h.1, h.2.symm⟩
      · exact fun h => ⟨h.1, h.2.symm⟩
    refine ⟨fun h => ?_, fun h => ?_⟩
    · rw [h1, if_pos (hiff.mpr h)]
    · rw [h1, if_neg (fun h' => h (hiff.mp h'))]
  obtain ⟨SA4, f1, R0⟩ := rankLoop_spec G hcell ((bstars T).length + 1) _ SA3 (by omega) R (Or.inl rfl)
  refine ⟨SA4, ?_, R0.len, ?_, fun j hj => bkRank_ends hj, bkRank_last hm0, ord, hperm, hsorted, ?_, ?_⟩
  · unfold sortStars
    try dsimp only
    rw [est, a1, bind_ok, if_pos hm0, e1]
    try dsimp only
    have eo : (List.range ((bstars T).length - 1)).reverse ++ [(bstars T).length - 1] = dssOrder (bstars T).length := rfl
    rw [eo, b1, bind_ok]
    try dsimp only
    rw [d1, bind_ok, f1, bind_ok]
  · intro j hj
    obtain ⟨p, hp, rfl⟩ := List.getElem_of_mem (hperm.mem_iff.mpr (List.mem_range.mpr hj))
    have := R0.rks p (Nat.zero_le _) (by omega)
    try dsimp only at this
    rwa [dss_getD hp] at this
  · intro p x hx hna
    have hpm : p < (bstars T).length := by rw [← hol]; exact (List.getElem?_eq_some_iff.mp hx).1
    have h1 := R0.many p (Nat.zero_le _) hpm (fun h => hna ((sng_alone G hperm hx).mp h))
    rw [h1]
    have h2 := hget p hpm
    rw [hx] at h2
    rw [Option.some.inj h2]
  · intro p l hl0 hpl h1 h2 h3
    refine R0.runs p l (Nat.zero_le _) hl0 hpl (fun q hq hq' => ?_) ?_ ?_
    · exact (sng_alone G hperm (hget q (by omega))).mpr (h1 q _ hq hq' (hget q (by omega)))
    · rcases Nat.lt_or_eq_of_le hpl with h | h
      · exact Or.inr (fun hs => h2 _ (hget _ h) ((sng_alone G hperm (hget _ h)).mp hs))
      · exact Or.inl h
    · rcases Nat.eq_zero_or_pos p with h | h
      · exact Or.inl h
      · exact Or.inr (fun hs => h3 _ h (hget _ (by omega)) ((sng_alone G hperm (hget _ (by omega))).mp hs))

theorem sortStars_spec (hcell : ∀ v : Int, -T.length ≤ v → v < T.length → cell v = v) {sss : SubSort} (hsss : SubSortOk T sss) {trs : RankSort}
    (htrs : RankSortOk (bstars T).length trs) {SA : List Int} (hl : SA.length = T.length) :
    ∃ mid, sortStars cell sss trs T SA = .ok mid ∧ BStarsRanked T mid := by
  rcases Nat.eq_zero_or_pos (bstars T).length with h0 | h0
  · have e : bstars T = [] := List.eq_nil_of_length_eq_zero h0
    refine ⟨SA, ?_, hl, fun j x h => by rw [e] at h; simp at h⟩
    unfold sortStars
    try dsimp only
    rw [(divsufsort_bstars T).1, e]
    rfl
  · obtain ⟨SA1, a1, a2, a3⟩ := sortStars_input hcell hsss trs hl h0
    obtain ⟨SA2, b1, b2, b3⟩ := htrs SA1 (bkRank T) (by rw [a2]; exact (divsufsort_bstars T).2) a3
    exact ⟨SA2, by rw [a1, b1], ranked_of_tails (by rw [b2, a2]) b3⟩

end Tdc
