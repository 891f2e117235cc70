import Verif.Lemmas.DivSufSortMerge2

/-! # `ss_inplacemerge`: the rounds -/

namespace Tdc

open DSS

variable {cell : Int → Int} {T : List UInt8} {B : List Int}

theorem Mk.fits {n f : Nat} {js : List Nat} (hcell : ∀ v : Int, -n ≤ v → v < n → cell v = v) (h : Mk T B f js) (hjs : ∀ x ∈ js, x < n) : Fits cell f (f + js.length) B := fun p h1 h2 => by
  obtain ⟨v, hv⟩ : ∃ v, marked T js (p - f) = some v := ⟨_, marked_eq (by omega)⟩
  have := h (p - f) (by omega)
  rw [hv] at this
  have hb := marked_bound hjs hv
  refine ⟨v, ?_, hcell v hb.1 hb.2⟩
  rw [← this]
  congr 1
  omega

/-- One rotation brings the larger numbers of the left part behind the right part. -/
theorem merge_rotate {n : Nat} (hcell : ∀ v : Int, -n ≤ v → v < n → cell v = v) {first p q : Nat} {L1 L2 R : List Nat} {r : Int}
    (h1 : Mk T B first L1) (h2 : Mk T B (first + L1.length) (q :: L2)) (h3 : Mk T B (first + L1.length + (q :: L2).length) (R ++ [p]))
    (hq : q < n) (hL : ∀ x ∈ L2, x < n) (hR : ∀ x ∈ R ++ [p], x < n) (hr : r = 0 ↔ bkey T q = bkey T p) :
    ∃ B1 B2, (if r = 0 then (sget B ((first + L1.length : Nat) : Int)).bind fun w => sset cell B ((first + L1.length : Nat) : Int) (inv w) else .ok B) = .ok B1 ∧
      ssRotate cell (first + L1.length + (q :: L2).length + (R ++ [p]).length - (first + L1.length) + 1) (first + L1.length) (first + L1.length + (q :: L2).length)
        (first + L1.length + (q :: L2).length + (R ++ [p]).length) B1 = .ok B2 ∧ B2.length = B.length ∧ Mk T B2 first L1 ∧ Mk T B2 (first + L1.length) ((R ++ [p]) ++ q :: L2) ∧
      (∀ x, x < first ∨ first + L1.length + (q :: L2).length + (R ++ [p]).length ≤ x → B2[x]? = B[x]?) := by
  have hB0 : B[first + L1.length]? = some (q : Int) := by
    have := h2 0 (by simp)
    rw [marked_zero] at this
    exact this
  have hlen := (List.getElem?_eq_some_iff.mp hB0).1
  obtain ⟨B1, e1, l1, v1, o1⟩ : ∃ B1 : List Int, (if r = 0 then (sget B ((first + L1.length : Nat) : Int)).bind fun w => sset cell B ((first + L1.length : Nat) : Int) (inv w) else .ok B) = .ok B1 ∧
      B1.length = B.length ∧ B1[first + L1.length]? = some (if bkey T p = bkey T q then -(q : Int) - 1 else q) ∧ ∀ x, x ≠ first + L1.length → B1[x]? = B[x]? := by
    by_cases h0 : r = 0
    · rw [if_pos h0, sget_ok hB0, DSS.bind_ok, sset_ok (hcell _ (by unfold inv; omega) (by unfold inv; omega)) hlen]
      refine ⟨_, rfl, List.length_set, ?_, fun x hx => List.getElem?_set_ne (Ne.symm hx)⟩
      rw [List.getElem?_set_self hlen, if_pos (hr.mp h0).symm]
      rfl
    · rw [if_neg h0]
      exact ⟨B, rfl, rfl, by rw [hB0, if_neg (fun h => h0 (hr.mpr h.symm))], fun _ _ => rfl⟩
  have hF2 := h2.fits hcell (by intro x hx; rcases List.mem_cons.mp hx with h | h; exacts [h ▸ hq, hL x h])
  have hF3 := h3.fits hcell hR
  have hF : Fits cell (first + L1.length) (first + L1.length + (q :: L2).length + (R ++ [p]).length) B1 := fun x hx1 hx2 => by
    by_cases hx : x = first + L1.length
    · subst hx
      exact ⟨_, v1, by split_ifs <;> exact hcell _ (by omega) (by omega)⟩
    · rw [o1 x hx]
      by_cases h : x < first + L1.length + (q :: L2).length
      · exact hF2 x hx1 h
      · exact hF3 x (by omega) hx2
  obtain ⟨B2, e2, l2, M⟩ := ssRotate_moved (first + L1.length + (q :: L2).length + (R ++ [p]).length - (first + L1.length) + 1) (first + L1.length) (first + L1.length + (q :: L2).length)
        (first + L1.length + (q :: L2).length + (R ++ [p]).length) B1 hF (Nat.le_refl _) (by omega) (by omega) (Nat.le_refl _) (by omega)
  refine ⟨B1, B2, e1, e2, by rw [l2, l1], h1.frame (fun x hx1 hx2 => ?_), fun k hk => ?_, fun x hx => ?_⟩
  · rw [M]
    dsimp only
    rw [if_neg (by omega), if_neg (by omega), o1 x (by omega)]
  · rw [List.length_append] at hk
    rw [M]
    dsimp only
    by_cases c1 : k < (R ++ [p]).length
    · rw [if_pos (by omega), marked_left c1, o1 _ (by rw [List.length_cons]; omega), ← h3 k c1]
      congr 1
      omega
    · rw [if_neg (by omega), if_pos (by omega)]
      by_cases c2 : k = (R ++ [p]).length
      · subst c2
        rw [marked_mid, ← v1]
        congr 1
        omega
      · obtain ⟨j, rfl⟩ : ∃ j, k = (R ++ [p]).length + j := ⟨k - (R ++ [p]).length, by omega⟩
        rw [marked_right (by omega), o1 _ (by omega), ← h2 j (by omega)]
        congr 1
        omega
  · rw [M]
    dsimp only
    have : (if first + L1.length ≤ x ∧ x < first + L1.length + (first + L1.length + (q :: L2).length + (R ++ [p]).length - (first + L1.length + (q :: L2).length)) then
        x - (first + L1.length) + (first + L1.length + (q :: L2).length) else
        if first + L1.length + (first + L1.length + (q :: L2).length + (R ++ [p]).length - (first + L1.length + (q :: L2).length)) ≤ x ∧
            x < first + L1.length + (q :: L2).length + (R ++ [p]).length then x - (first + L1.length + (q :: L2).length + (R ++ [p]).length - (first + L1.length + (q :: L2).length)) else x) = x := by
      rw [if_neg (by omega), if_neg (by omega)]
    rw [this, o1 x (by rw [List.length_cons] at hx; omega)]

/-- what a merge delivers -/
def Merged (T : List UInt8) (B B' : List Int) (first last : Nat) (is : List Nat) : Prop :=
  B'.length = B.length ∧ (∃ js : List Nat, js.Perm is ∧ SortedK T js ∧ Mk T B' first js) ∧ ∀ x, x < first ∨ last ≤ x → B'[x]? = B[x]?

theorem ssInplacemerge_spec {n : Nat} (hcell : ∀ v : Int, -n ≤ v → v < n → cell v = v) (hn : (bstars T).length ≤ n) {d : Nat} : ∀ (fuel first : Nat) (L R : List Nat) (B : List Int), R ≠ [] → R.length < fuel →
    MEnv T d B (L ++ R) → Mk T B first L → Mk T B (first + L.length) R → SortedK T L → SortedK T R → first + L.length + R.length ≤ (bstars T).length →
    ∃ B', ssInplacemerge cell T ((T.length : Int) - (bstars T).length) d fuel first (first + L.length) (first + L.length + R.length) B = .ok B' ∧
      Merged T B B' first (first + L.length + R.length) (L ++ R)
  | 0, _, _, _, _, _, h, _, _, _, _, _, _ => by omega
  | fuel + 1, first, L, R, B, hne, hf, E, hL, hR, sL, sR, hm => by
    obtain ⟨R0, p, rfl⟩ : ∃ R0 p, R = R0 ++ [p] := ⟨R.dropLast, R.getLast hne, (List.dropLast_append_getLast hne).symm⟩
    have hRl : (R0 ++ [p]).length = R0.length + 1 := by simp
    have hRn : R0.length < (R0 ++ [p]).length := by omega
    have hpget : (R0 ++ [p])[R0.length] = p := by simp
    have hbn : ∀ x ∈ L ++ (R0 ++ [p]), x < n := fun x hx => by have := E.mem x hx; omega
    have hpm : p ∈ L ++ (R0 ++ [p]) := by simp
    obtain ⟨v, hv⟩ : ∃ v, marked T (R0 ++ [p]) R0.length = some v := ⟨_, marked_eq hRn⟩
    have hvB : B[first + L.length + R0.length]? = some v := by rw [hR _ hRn, hv]
    have hvh := marked_neg hRn hv
    have hvu := unmark_marked hRn hv
    rw [hpget] at hvu
    have EL : MEnv T d B (p :: L) := E.sub (fun x hx => by rcases List.mem_cons.mp hx with h | h; exacts [h ▸ hpm, List.mem_append_left _ h]) rfl (fun _ _ => rfl)
    -- the end of a round
    have hnext : ∀ (L1 L2 : List Nat) (B2 : List Int), L = L1 ++ L2 → B2.length = B.length → Mk T B2 first L1 → Mk T B2 (first + L1.length) ((R0 ++ [p]) ++ L2) →
        (∀ x, x < first ∨ first + L.length + (R0 ++ [p]).length ≤ x → B2[x]? = B[x]?) → (∀ x ∈ L1, bkey T x < bkey T p) → (∀ x ∈ L2, ¬ bkey T x < bkey T p) →
        ∃ B', ((if v < 0 then ssRunHead B2 (first + L1.length + (R0 ++ [p]).length - 1) else .ok (first + L1.length + (R0 ++ [p]).length - 1)).bind fun last' =>
            if first + L1.length = last' then .ok B2 else ssInplacemerge cell T ((T.length : Int) - (bstars T).length) d fuel first (first + L1.length) last' B2) = .ok B' ∧
          Merged T B B' first (first + L.length + (R0 ++ [p]).length) (L ++ (R0 ++ [p])) := by
      intro L1 L2 B2 hLe hl2 m1 m2 ho k1 k2
      have hLl : L.length = L1.length + L2.length := by rw [hLe, List.length_append]
      have m2' : Mk T B2 (first + L1.length) (R0 ++ [p]) := fun k hk => by
        rw [m2 k (by rw [List.length_append]; omega), marked_left hk]
      obtain ⟨j, j1, j2, j3, j4⟩ : ∃ j, (if v < 0 then ssRunHead B2 (first + L1.length + (R0 ++ [p]).length - 1) else .ok (first + L1.length + (R0 ++ [p]).length - 1)) =
          .ok (first + L1.length + j) ∧ j ≤ R0.length ∧ Head T (R0 ++ [p]) j ∧ ∀ q, j < q → q ≤ R0.length → ¬ Head T (R0 ++ [p]) q := by
        by_cases h0 : v < 0
        · rw [if_pos h0]
          have hh := hvh.mp h0
          have h1 := (not_head hRn hh).1
          obtain ⟨j, e1, e2, e3, e4⟩ := ssRunHead_spec m2' (R0.length - 1) (by omega)
          have ea : first + L1.length + (R0 ++ [p]).length - 1 = first + L1.length + (R0.length - 1) + 1 := by omega
          rw [ea, e1]
          refine ⟨j, rfl, by omega, e3, fun q h2 h3 => ?_⟩
          by_cases hq : q = R0.length
          · subst hq; exact hh
          · exact e4 q h2 (by omega)
        · rw [if_neg h0]
          refine ⟨R0.length, by congr 1; omega, Nat.le_refl _, ?_, fun q h1 h2 => by omega⟩
          by_contra hc
          exact h0 (hvh.mpr hc)
      obtain ⟨s1, s2⟩ := run_split sR (n := R0.length) (by omega) j2 j3 j4
      simp only [hpget] at s1 s2
      have eR : (R0 ++ [p]).take j ++ (R0 ++ [p]).drop j = R0 ++ [p] := List.take_append_drop _ _
      have tl : ((R0 ++ [p]).take j).length = j := by rw [List.length_take]; omega
      have t1 : ∀ x ∈ (R0 ++ [p]).take j, bkey T x < bkey T p := fun x hx => by
        obtain ⟨i, hi, rfl⟩ := List.getElem_of_mem hx
        rw [List.getElem_take]
        exact s2 i (by omega) (by omega)
      have t2 : ∀ x ∈ (R0 ++ [p]).drop j, bkey T x = bkey T p := fun x hx => by
        obtain ⟨i, hi, rfl⟩ := List.getElem_of_mem hx
        rw [List.length_drop] at hi
        rw [List.getElem_drop]
        exact s1 _ (by omega) (by omega)
      have sL2 : SortedK T L2 := (sortedK_append.mp (hLe ▸ sL)).2.1
      have t3 : ∀ y ∈ (R0 ++ [p]).drop j ++ L2, ¬ bkey T y < bkey T p := fun y hy => by
        rcases List.mem_append.mp hy with h | h
        · rw [t2 y h]; exact lex_irrefl _
        · exact k2 y h
      have sW : SortedK T ((R0 ++ [p]).drop j ++ L2) := sortedK_append.mpr ⟨sR.sublist (List.drop_sublist _ _), sL2, fun x hx y hy => by rw [t2 x hx]; exact k2 y hy⟩
      have mW : Mk T B2 (first + L1.length + j) ((R0 ++ [p]).drop j ++ L2) := by
        have h := m2
        rw [← eR, List.append_assoc] at h
        have := (mk_append (fun x hx y hy => lt_of_not_lt (t1 x hx) (t3 y hy))).mp h
        rw [tl] at this
        exact this.2
      rw [j1, DSS.bind_ok]
      by_cases hj : j = 0
      · subst hj
        rw [if_pos (Nat.add_zero _).symm]
        refine ⟨B2, rfl, hl2, ⟨L1 ++ ((R0 ++ [p]) ++ L2), ?_, ?_, ?_⟩, ho⟩
        · rw [hLe, List.append_assoc L1 L2]
          exact List.Perm.append_left _ List.perm_append_comm
        · rw [List.drop_zero] at sW t3
          exact sortedK_append.mpr ⟨(sortedK_append.mp (hLe ▸ sL)).1, sW, fun x hx y hy h => lex_irrefl _ (lex_trans h (lt_of_not_lt (k1 x hx) (t3 y hy)))⟩
        · rw [List.drop_zero] at t3
          exact (mk_append (fun x hx y hy => lt_of_not_lt (k1 x hx) (t3 y hy))).mpr ⟨m1, m2⟩
      · rw [if_neg (by omega)]
        have hsub : ∀ x ∈ L1 ++ (R0 ++ [p]).take j, x ∈ L ++ (R0 ++ [p]) := fun x hx => by
          rcases List.mem_append.mp hx with h | h
          · exact List.mem_append_left _ (hLe ▸ List.mem_append_left _ h)
          · exact List.mem_append_right _ (List.mem_of_mem_take h)
        obtain ⟨B', e1, q1, ⟨js, q2, q3, q4⟩, q5⟩ := ssInplacemerge_spec hcell hn fuel first L1 ((R0 ++ [p]).take j) B2 (fun h => by
            have := congrArg List.length h
            rw [tl, List.length_nil] at this
            omega) (by omega) (E.sub hsub hl2 (fun x hx => ho x (Or.inr (by omega)))) m1 (fun k hk => by
              rw [m2' k (by omega), ← eR, marked_left hk, eR]) (sortedK_append.mp (hLe ▸ sL)).1 (sR.sublist (List.take_sublist _ _)) (by omega)
        rw [tl] at e1 q5
        have hjl : js.length = L1.length + j := by rw [q2.length_eq, List.length_append, tl]
        have hst : ∀ x ∈ js, ∀ y ∈ (R0 ++ [p]).drop j ++ L2, bkey T x < bkey T y := fun x hx y hy => by
          refine lt_of_not_lt ?_ (t3 y hy)
          rcases List.mem_append.mp (q2.mem_iff.mp hx) with h | h
          · exact k1 x h
          · exact t1 x h
        refine ⟨B', e1, by rw [q1, hl2], ⟨js ++ ((R0 ++ [p]).drop j ++ L2), ?_, ?_, ?_⟩, fun x hx => ?_⟩
        · refine (q2.append_right _).trans ?_
          rw [List.append_assoc, ← List.append_assoc ((R0 ++ [p]).take j), eR, hLe, List.append_assoc L1 L2]
          exact List.Perm.append_left _ List.perm_append_comm
        · exact sortedK_append.mpr ⟨q3, sW, fun x hx y hy h => lex_irrefl _ (lex_trans h (hst x hx y hy))⟩
        · refine (mk_append hst).mpr ⟨q4, ?_⟩
          rw [hjl, ← Nat.add_assoc]
          exact mW.frame (fun x h1 h2 => q5 x (Or.inr h1))
        · rw [q5 x (by omega), ho x hx]
    unfold ssInplacemerge
    dsimp only
    have el : ((first + L.length + (R0 ++ [p]).length - 1 : Nat) : Int) = ((first + L.length + R0.length : Nat) : Int) := by congr 1; omega
    obtain ⟨k, r, b1, b2, b3, b4, b5⟩ := ssBisect_spec EL hL sL (L.length + 1) 0 L.length (-1) (by omega) (by omega) (fun i h hi => by omega) (fun i h hi => by omega) (fun h => by omega)
    have e0 : first + 0 = first := rfl
    rw [e0] at b1
    rw [el, sget_ok hvB, DSS.bind_ok, hvu, Nat.add_sub_cancel_left, b1, DSS.bind_ok]
    dsimp only
    rcases Nat.lt_or_eq_of_le b2 with hk | hk
    · rw [if_pos (by omega)]
      have eL : L = L.take k ++ L[k] :: L.drop (k + 1) := by rw [← List.drop_eq_getElem_cons hk, List.take_append_drop]
      have tkl : (L.take k).length = k := by rw [List.length_take]; omega
      have c1 : ∀ x ∈ L.take k, bkey T x < bkey T p := fun x hx => by
        obtain ⟨i, hi, rfl⟩ := List.getElem_of_mem hx
        rw [List.getElem_take]
        exact b3 i (by omega) (by omega)
      have c2 : ∀ x ∈ L[k] :: L.drop (k + 1), ¬ bkey T x < bkey T p := fun x hx => by
        rw [← List.drop_eq_getElem_cons hk] at hx
        obtain ⟨i, hi, rfl⟩ := List.getElem_of_mem hx
        rw [List.length_drop] at hi
        rw [List.getElem_drop]
        exact b4 _ (by omega) (by omega)
      have hL' := hL
      rw [eL] at hL'
      obtain ⟨m1, m2⟩ := (mk_append (fun x hx y hy => lt_of_not_lt (c1 x hx) (c2 y hy))).mp hL'
      have ell : first + L.length = first + (L.take k).length + (L[k] :: L.drop (k + 1)).length := by
        rw [Nat.add_assoc, ← List.length_append, ← eL]
      have hR' := hR
      rw [ell] at hR'
      obtain ⟨B1, B2, g1, g2, g3, g4, g5, g6⟩ := merge_rotate hcell m1 m2 hR' (hbn _ (by simp)) (fun x hx => hbn x (List.mem_append_left _ (List.mem_of_mem_drop hx)))
        (fun x hx => hbn x (List.mem_append_right _ hx)) (b5 hk)
      rw [← ell, tkl] at g2
      rw [tkl] at g1
      rw [g1, DSS.bind_ok, g2, DSS.bind_ok]
      by_cases hk0 : k = 0
      · subst hk0
        rw [if_pos (Nat.add_zero _).symm]
        refine ⟨B2, rfl, g3, ⟨(R0 ++ [p]) ++ L[0] :: L.drop 1, ?_, ?_, ?_⟩, fun x hx => g6 x (by rw [← ell]; exact hx)⟩
        · conv_rhs => rw [eL]
          rw [List.take_zero, List.nil_append]
          exact List.perm_append_comm
        · refine sortedK_append.mpr ⟨sR, ?_, fun x hx y hy => ?_⟩
          · have := sL
            rw [eL, List.take_zero, List.nil_append] at this
            exact this
          · refine not_lt_trans (b := bkey T p) ?_ (c2 y hy)
            obtain ⟨i, hi, rfl⟩ := List.getElem_of_mem hx
            rcases Nat.lt_or_eq_of_le (by omega : i ≤ R0.length) with h | h
            · have := List.pairwise_iff_getElem.mp sR i R0.length hi hRn h
              rw [hpget] at this
              exact this
            · subst h
              rw [hpget]
              exact lex_irrefl _
        · rw [tkl, Nat.add_zero] at g5
          exact g5
      · rw [if_neg (by omega)]
        have e2 : first + L.length + (R0 ++ [p]).length - (first + L.length - (first + k)) = first + (L.take k).length + (R0 ++ [p]).length := by rw [tkl]; omega
        have := hnext (L.take k) (L[k] :: L.drop (k + 1)) B2 eL g3 g4 g5 (fun x hx => g6 x (by rw [← ell]; exact hx)) c1 c2
        rw [tkl] at this e2
        rw [e2]
        exact this
    · rw [if_neg (by omega)]
      refine hnext L [] B (List.append_nil _).symm rfl hL (by rw [List.append_nil]; exact hR) (fun _ _ => rfl) (fun x hx => ?_) (fun x hx => by simp at hx)
      obtain ⟨i, hi, rfl⟩ := List.getElem_of_mem hx
      exact b3 i hi (by omega)

end Tdc
