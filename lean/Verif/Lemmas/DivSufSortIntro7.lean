import Verif.Lemmas.DivSufSortIntro6

/-! # Multikey introsort: all rounds -/

namespace Tdc

open DSS

variable {cell : Int → Int} {T : List UInt8} {d f l : Nat} {B0 B : List Int} {o0 o : Nat → Nat}

/-- what `ss_heapsort` does: the numbers in `[f, l)` sorted by the character at `d` -/
def HeapOk (T : List UInt8) (heap : HeapSort) : Prop :=
  ∀ (d f l : Nat) (B : List Int) (o : Nat → Nat), Env T d f l B o → 8 < l - f → (∀ p, f ≤ p → p < l → B[p]? = some (o p : Int)) →
    ∃ B' o', heap d f l B = .ok B' ∧ Sh f l B B' o o' ∧ ∀ p q, f ≤ p → p < q → q < l → chr T d (o' p) ≤ chr T d (o' q)

theorem SegOk.frame {t : Seg} {B1 : List Int} {o1 : Nat → Nat} (h : SegOk T B o t) (he : ∀ p, t.first ≤ p → p < t.last → B1[p]? = B[p]? ∧ o1 p = o p) : SegOk T B1 o1 t :=
  ⟨h.fl, h.lm, fun p h1 h2 => by rw [(he p h1 h2).1, (he p h1 h2).2]; exact h.hold p h1 h2, fun p h1 h2 => by rw [(he p h1 h2).2]; exact h.good p h1 h2,
    fun p q h1 h2 h3 h4 => by rw [(he p h1 h2).2, (he q h3 h4).2]; exact h.same p q h1 h2 h3 h4, h.two,
    fun hl p q h1 h2 h3 => by rw [(he p h1 (by omega)).2, (he q (by omega) h3).2]; exact h.srt hl p q h1 h2 h3⟩

theorem segW_congr {t : Seg} {o1 : Nat → Nat} (he : ∀ p, t.first ≤ p → p < t.last → o1 p = o p) : segW T o1 t = segW T o t := by
  unfold segW
  rw [wt_congr he]

theorem Sh.seg {s : Seg} (S : Sh s.first s.last B0 B o0 o) (h : SegOk T B0 o0 s) (srt : s.limit < 0 → ∀ p q, s.first ≤ p → p < q → q < s.last → chr T s.depth (o p) ≤ chr T s.depth (o q)) :
    SegOk T B o s := by
  refine ⟨h.fl, h.lm, S.hold, fun p h1 h2 => ?_, fun p q h1 h2 h3 h4 => ?_, h.two, srt⟩
  · obtain ⟨q, i1, i2, i3⟩ := S.mem h1 h2
    rw [i3]; exact h.good q i1 i2
  · obtain ⟨p', i1, i2, i3⟩ := S.mem h1 h2
    obtain ⟨q', j1, j2, j3⟩ := S.mem h3 h4
    rw [i3, j3]; exact h.same p' q' i1 i2 j1 j2

theorem hasPos_of_out {B1 : List Int} (hB : HasPos T B) (hl : l ≤ (bstars T).length) (h : ∀ p, l ≤ p → B1[p]? = B[p]?) : HasPos T B1 := fun x hx => by
  have h2m := (divsufsort_bstars T).2
  rw [h _ (by omega), hB x hx]

/-- a round with more than eight substrings -/
theorem ssRound_spec (hcell : ∀ v : Int, -T.length ≤ v → v < T.length → cell v = v) {heap : HeapSort} (hh : HeapOk T heap) {s : Seg} {st : List Seg} (hs : SegOk T B o s)
    (hB : HasPos T B) (hl : B.length = T.length) (h8 : 8 < s.last - s.first) (hst : StackOk (s :: st)) :
    ∃ B1 s' st' B2, (if s.limit = 0 then heap s.depth s.first s.last B else .ok B) = .ok B1 ∧
      (if s.limit ≤ 0 then ssRunStep cell T ((T.length : Int) - (bstars T).length) s st B1
        else ssPivotStep cell T ((T.length : Int) - (bstars T).length) { s with limit := s.limit - 1 } st B1) = .ok (s', st', B2) ∧ StepPost T B o s st (s' :: st') B2 := by
  by_cases h0 : s.limit ≤ 0
  · simp only [if_pos h0]
    by_cases h1 : s.limit = 0
    · rw [if_pos h1]
      obtain ⟨B1, o1, e1, S, srt⟩ := hh s.depth s.first s.last B o (hs.env hl hB) h8 hs.hold
      have hs1 := S.seg hs (fun _ => srt)
      obtain ⟨s', st', B2, e2, P⟩ := ssRunStep_spec hcell hs1 (hasPos_of_out hB hs.lm (fun p hp => S.out p (Or.inr hp))) (by rw [S.len, hl]) h8 srt hst
      exact ⟨B1, s', st', B2, e1, e2, StepPost.pre S P⟩
    · rw [if_neg h1]
      obtain ⟨s', st', B2, e2, P⟩ := ssRunStep_spec hcell hs hB hl h8 (hs.srt (by omega)) hst
      exact ⟨B, s', st', B2, rfl, e2, P⟩
  · simp only [if_neg h0]
    rw [if_neg (by omega)]
    have hs' : SegOk T B o { s with limit := s.limit - 1 } := ⟨hs.fl, hs.lm, hs.hold, hs.good, hs.same, hs.two, fun (h : s.limit - 1 < 0) => by omega⟩
    obtain ⟨s', st', B2, e2, P⟩ := ssPivotStep_spec (s := { s with limit := s.limit - 1 }) hcell hs' hB hl h8 (show 0 ≤ s.limit - 1 by omega) hst
    exact ⟨B, s', st', B2, rfl, e2, P⟩

/-- at most eight substrings -/
theorem ssSmall_spec (hcell : ∀ v : Int, -T.length ≤ v → v < T.length → cell v = v) {s : Seg} (hs : SegOk T B o s)
    (hB : HasPos T B) (hl : B.length = T.length) :
    ∃ B1, (if 1 < s.last - s.first then ssInsertionsort cell T ((T.length : Int) - (bstars T).length) s.depth s.first s.last B else .ok B) = .ok B1 ∧ B1.length = B.length ∧
      PostI T o s.first s.last B1 ∧ ∀ p, p < s.first ∨ s.last ≤ p → B1[p]? = B[p]? := by
  have h2m := (divsufsort_bstars T).2
  have hfl := hs.fl
  have hlm := hs.lm
  by_cases h1 : 1 < s.last - s.first
  · rw [if_pos h1]
    have mem : ∀ x, x ∈ (List.range' s.first (s.last - s.first)).map o → ∃ p, s.first ≤ p ∧ p < s.last ∧ x = o p := fun x hx => by
      rw [List.mem_map] at hx
      obtain ⟨p, hp, rfl⟩ := hx
      rw [List.mem_range'_1] at hp
      exact ⟨p, hp.1, by omega, rfl⟩
    obtain ⟨B1, js, g1, g2, g3, g4, g5, g6⟩ := ssInsertionsort_spec (n := T.length) (first := s.first) (is := (List.range' s.first (s.last - s.first)).map o) (B0 := B) (depth := s.depth)
      hcell (by omega) hl.symm (fun x hx => by
        obtain ⟨p, h3, h4, rfl⟩ := mem x hx
        exact (hs.good p h3 h4).1) (fun x hx y hy => by
        obtain ⟨p, h3, h4, rfl⟩ := mem x hx
        obtain ⟨q, h5, h6, rfl⟩ := mem y hy
        exact ⟨Nat.le_of_lt (hs.good p h3 h4).2, Nat.le_of_lt (hs.good q h5 h6).2, hs.same p q h3 h4 h5 h6⟩) hB (by rw [List.length_map, List.length_range']; omega)
      (fun k x hk => by
        have hlt : k < s.last - s.first := by
          have := (List.getElem?_eq_some_iff.mp hk).1
          rwa [List.length_map, List.length_range'] at this
        rw [map_get hlt, Option.some.injEq] at hk
        rw [← hk]
        exact hs.hold _ (by omega) (by omega))
    have hlen : s.first + ((List.range' s.first (s.last - s.first)).map o).length = s.last := by rw [List.length_map, List.length_range']; omega
    rw [hlen] at g1 g6
    exact ⟨B1, g1, g2, ⟨js, g3, g4, fun k hk => g5 k hk⟩, g6⟩
  · rw [if_neg h1]
    exact ⟨B, rfl, rfl, PostI.strict hs.hold (fun p q h3 h4 h5 => by omega), fun _ _ => rfl⟩

theorem ssIntro_spec (hcell : ∀ v : Int, -T.length ≤ v → v < T.length → cell v = v) {heap : HeapSort} (hh : HeapOk T heap) : ∀ (fuel : Nat) (s : Seg) (st : List Seg) (B : List Int) (o : Nat → Nat),
    B.length = T.length → HasPos T B → (∀ t ∈ s :: st, SegOk T B o t) → (s :: st).Pairwise Disj → StackOk (s :: st) → ((s :: st).map (segW T o)).sum ≤ fuel →
    ∃ B', ssIntro cell heap T ((T.length : Int) - (bstars T).length) fuel s st B = .ok B' ∧ B'.length = B.length ∧ (∀ t ∈ s :: st, PostI T o t.first t.last B') ∧
      ∀ p, (∀ t ∈ s :: st, p < t.first ∨ t.last ≤ p) → B'[p]? = B[p]?
  | 0, s, st, B, o, _, _, _, _, _, hf => by
    rw [List.map_cons, List.sum_cons] at hf
    unfold segW at hf
    omega
  | fuel + 1, s, st, B, o, hl, hB, hok, hd, hso, hf => by
    have hs := hok s (by simp)
    have hd' := List.pairwise_cons.mp hd
    have hsub : ∀ t ∈ st, ∀ p, t.first ≤ p → p < t.last → p < s.first ∨ s.last ≤ p := fun t ht p h1 h2 => by
      have := hd'.1 t ht
      unfold Disj at this
      omega
    unfold ssIntro
    by_cases h8 : s.last - s.first ≤ 8
    · rw [if_pos h8]
      obtain ⟨B1, e1, hl1, hp1, ho1⟩ := ssSmall_spec hcell hs hB hl
      rw [e1, DSS.bind_ok]
      match st, hok, hd', hso, hf, hsub with
      | [], _, _, _, _, _ =>
        refine ⟨B1, rfl, hl1, fun t ht => ?_, fun p hp => ho1 p (hp s (by simp))⟩
        rw [List.mem_singleton.mp ht]; exact hp1
      | s' :: st', hok, hd', hso, hf, hsub =>
        dsimp only
        obtain ⟨B', e2, k1, k2, k3⟩ := ssIntro_spec hcell hh fuel s' st' B1 o (by rw [hl1, hl]) (hasPos_of_out hB hs.lm (fun p hp => ho1 p (Or.inr hp)))
          (fun t ht => (hok t (by simp only [List.mem_cons] at ht ⊢; tauto)).frame (fun p h1 h2 => ⟨ho1 p (hsub t ht p h1 h2), rfl⟩)) hd'.2 hso.2 (by
            rw [List.map_cons, List.sum_cons] at hf
            have : 1 ≤ segW T o s := by unfold segW; omega
            omega)
        refine ⟨B', e2, by rw [k1, hl1], fun t ht => ?_, fun p hp => ?_⟩
        · rcases List.mem_cons.mp ht with h | h
          · subst h
            exact hp1.congr (fun p h1 h2 => ⟨rfl, k3 p (fun t ht => by
              have := hsub t ht p
              omega)⟩)
          · exact k2 t h
        · rw [k3 p (fun t ht => hp t (List.mem_cons_of_mem _ ht)), ho1 p (hp s (by simp))]
    · rw [if_neg h8]
      obtain ⟨B1, s', st', B2, e1, e2, P⟩ := ssRound_spec hcell hh hs hB hl (by omega) hso
      rw [e1, DSS.bind_ok, e2, DSS.bind_ok]
      dsimp only
      obtain ⟨parts, o1, hpm, hpd, hpp, hpo, hpl, hpw, hps, hpost⟩ := P
      have hcong : ∀ t ∈ st, ∀ p, t.first ≤ p → p < t.last → B2[p]? = B[p]? ∧ o1 p = o p := fun t ht p h1 h2 => hpo p (hsub t ht p h1 h2)
      have hmem : ∀ t, t ∈ s' :: st' ↔ t ∈ parts ∨ t ∈ st := fun t => by rw [hpm.mem_iff, List.mem_append]
      obtain ⟨B', e3, k1, k2, k3⟩ := ssIntro_spec hcell hh fuel s' st' B2 o1 (by rw [hpl, hl]) (hasPos_of_out hB hs.lm (fun p hp => (hpo p (Or.inr hp)).1))
        (fun t ht => by
          rcases (hmem t).mp ht with h | h
          · exact (hpp t h).2.2
          · exact (hok t (List.mem_cons_of_mem _ h)).frame (hcong t h))
        (by
          refine (hpm.pairwise_iff (fun {x y} h => Or.symm h)).mpr (List.pairwise_append.mpr ⟨hpd, hd'.2, fun x hx y hy => ?_⟩)
          have h1 := hd'.1 y hy
          have h2 := hpp x hx
          unfold Disj at h1
          show x.last ≤ y.first ∨ y.last ≤ x.first
          omega) hps (by
          have h1 : ((s' :: st').map (segW T o1)).sum = (parts.map (segW T o1)).sum + (st.map (segW T o)).sum := by
            rw [(hpm.map (segW T o1)).sum_eq, List.map_append, List.sum_append]
            congr 2
            exact List.map_congr_left (fun t ht => segW_congr (fun p h1 h2 => (hcong t ht p h1 h2).2))
          rw [List.map_cons, List.sum_cons] at hf
          omega)
      refine ⟨B', e3, by rw [k1, hpl], fun t ht => ?_, fun p hp => ?_⟩
      · rcases List.mem_cons.mp ht with h | h
        · subst h
          refine hpost B' (fun t ht => k2 t ((hmem t).mpr (Or.inl ht))) (fun p h1 h2 h3 => k3 p (fun u hu => ?_))
          rcases (hmem u).mp hu with h | h
          · exact h3 u h
          · have := hsub u h p
            omega
        · exact (k2 t ((hmem t).mpr (Or.inr h))).congr (fun p h1 h2 => ⟨((hcong t h p h1 h2).2).symm, rfl⟩)
      · rw [k3 p (fun u hu => ?_), (hpo p (hp s (by simp))).1]
        rcases (hmem u).mp hu with h | h
        · have h1 := hpp u h
          have h2 := hp s (by simp)
          omega
        · exact hp u (List.mem_cons_of_mem _ h)

theorem ssIlg_nonneg {n : Nat} (h : ssIlg n < 0) : n = 0 := by
  unfold ssIlg at h
  by_contra hc
  rw [if_neg hc] at h
  have h' : (n.log2 : Int) < 0 := h
  omega

theorem bkey_le {x : Nat} (hx : x < (bstars T).length) : (bkey T x).length ≤ T.length := by
  unfold bkey
  split
  · rw [List.length_take, List.length_drop]; omega
  · rw [List.length_drop]; omega
  · simp

/-- `ss_mintrosort` sorts and marks at most 1024 substrings with the same first characters. -/
theorem ssMintrosort_spec (hcell : ∀ v : Int, -T.length ≤ v → v < T.length → cell v = v) {heap : HeapSort} (hh : HeapOk T heap) {first : Nat} {is : List Nat}
    (hl : B.length = T.length) (hB : HasPos T B) (hgood : ∀ x ∈ is, Good T d x) (hd : 1 ≤ d) (hsame : ∀ x ∈ is, ∀ y ∈ is, (bkey T x).take d = (bkey T y).take d)
    (hm : first + is.length ≤ (bstars T).length) (h1024 : is.length ≤ 1024) (hin : ∀ (k x : Nat), is[k]? = some x → B[first + k]? = some (x : Int)) :
    ∃ (B' : List Int) (js : List Nat), ssMintrosort cell heap T ((T.length : Int) - (bstars T).length) first (first + is.length) d B = .ok B' ∧ B'.length = B.length ∧ js.Perm is ∧
      js.Pairwise (fun x y => ¬ bkey T y < bkey T x) ∧ (∀ k, k < js.length → B'[first + k]? = marked T js k) ∧
      (∀ p, p < first ∨ first + is.length ≤ p → B'[p]? = B[p]?) := by
  have hget : ∀ p, first ≤ p → p < first + is.length → is[p - first]? = some (is.getD (p - first) 0) := fun p h1 h2 => by
    rw [List.getD_eq_getElem?_getD, List.getElem?_eq_getElem (by omega : p - first < is.length)]
    rfl
  have hmem : ∀ p, first ≤ p → p < first + is.length → is.getD (p - first) 0 ∈ is := fun p h1 h2 => List.mem_of_getElem? (hget p h1 h2)
  have hs : SegOk T B (fun p => is.getD (p - first) 0) ⟨first, first + is.length, d, ssIlg (first + is.length - first)⟩ := by
    refine ⟨Nat.le_add_right _ _, hm, fun p (h1 : first ≤ p) (h2 : p < first + is.length) => ?_, fun p h1 h2 => hgood _ (hmem p h1 h2),
      fun p q h1 h2 h3 h4 => hsame _ (hmem p h1 h2) _ (hmem q h3 h4), hd, fun h => ?_⟩
    · have := hin (p - first) _ (hget p h1 h2)
      rw [← this]
      congr 1
      omega
    · have := ssIlg_nonneg h
      intro p q (h1 : first ≤ p) h2 (h3 : q < first + is.length)
      omega
  obtain ⟨B', e1, e2, e3, e4⟩ := ssIntro_spec hcell hh (3 * (T.length + 1) * (first + is.length - first) + 2) ⟨first, first + is.length, d, ssIlg (first + is.length - first)⟩ [] B _ hl hB
    (fun t ht => by rw [List.mem_singleton.mp ht]; exact hs) (List.pairwise_singleton _ _) ⟨by
      show (first + is.length - first) ^ 2 * 3 ^ 0 ≤ 1048576
      rw [Nat.add_sub_cancel_left, pow_zero, Nat.mul_one]
      exact Nat.le_trans (Nat.pow_le_pow_left h1024 2) (by norm_num), trivial⟩ (by
      simp only [List.map_cons, List.map_nil, List.sum_cons, List.sum_nil, segW]
      have : wt T (fun p => is.getD (p - first) 0) d first (first + is.length) ≤ (first + is.length - first) * (3 * (T.length + 1)) := by
        unfold wt
        refine Nat.le_trans (List.sum_le_card_nsmul _ (3 * (T.length + 1)) (fun x hx => ?_)) ?_
        · rw [List.mem_map] at hx
          obtain ⟨p, hp, rfl⟩ := hx
          rw [List.mem_range'_1] at hp
          have h1 := (hgood _ (hmem p hp.1 (by omega))).1
          have := bkey_le (T := T) (x := is.getD (p - first) 0) (by omega)
          dsimp only
          omega
        · rw [List.length_map, List.length_range']; exact Nat.le_refl _
      rw [Nat.mul_comm] at this
      omega)
  obtain ⟨js, j1, j2, j3⟩ := e3 _ (List.mem_singleton.mpr rfl)
  refine ⟨B', js, e1, e2, j1.trans ?_, j2, j3, fun p hp => e4 p (fun t ht => by rw [List.mem_singleton.mp ht]; exact hp)⟩
  have : (List.range' first (first + is.length - first)).map (fun p => is.getD (p - first) 0) = is := by
    refine List.ext_getElem? (fun k => ?_)
    by_cases hk : k < is.length
    · rw [map_get (by omega)]
      have := hget (first + k) (by omega) (by omega)
      rw [Nat.add_sub_cancel_left] at this ⊢
      exact this.symm
    · rw [List.getElem?_eq_none (by rw [List.length_map, List.length_range']; omega), List.getElem?_eq_none (by omega)]
  show ((List.range' first (first + is.length - first)).map fun p => is.getD (p - first) 0).Perm is
  rw [this]

end Tdc
