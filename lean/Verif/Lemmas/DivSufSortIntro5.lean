import Verif.Lemmas.DivSufSortIntro4

/-! # Multikey introsort: the rounds -/

namespace Tdc

open DSS

variable {cell : Int → Int} {T : List UInt8} {d f l : Nat} {B0 B : List Int} {o0 o : Nat → Nat}

/-- a round on the same numbers in another order -/
theorem StepPost.pre {s : Seg} {st st1 : List Seg} {B1 : List Int} (S : Sh s.first s.last B0 B o0 o) (P : StepPost T B o s st st1 B1) : StepPost T B0 o0 s st st1 B1 := by
  obtain ⟨parts, o1, h1, h2, h3, h4, h5, h6, h7, h8⟩ := P
  refine ⟨parts, o1, h1, h2, h3, fun p hp => ⟨by rw [(h4 p hp).1, S.out p hp], by rw [(h4 p hp).2, S.outo hp]⟩, by rw [h5, S.len], ?_, h7, fun B' h9 h10 => (h8 B' h9 h10).perm S.perm⟩
  unfold segW at h6 ⊢
  rwa [wt_perm S.perm] at h6

/-- the pivot step, with its three parts -/
theorem pivot_parts {s : Seg} {st : List Seg} (hs : SegOk T B o s) {a c b v : Nat} {lim : Int} (hlim : 0 ≤ lim) {B4 B5 : List Int} {o4 o5 : Nat → Nat} (hB : HasPos T B) (hl : B.length = T.length)
    (S : Sh s.first s.last B B4 o o4) (hfa : s.first ≤ a) (hac : a < c) (hcl : c ≤ s.last)
    (zA : ∀ p, s.first ≤ p → p < a → chr T s.depth (o4 p) < v) (zM : ∀ p, a ≤ p → p < c → chr T s.depth (o4 p) = v) (zR : ∀ p, c ≤ p → p < s.last → v < chr T s.depth (o4 p))
    (R : PartRes T s.depth a c B4 o4 b B5 o5) {st1 : List Seg}
    (hst1 : st1.Perm ([⟨s.first, a, s.depth, lim⟩, ⟨b, c, s.depth + 1, ssIlg (c - b)⟩, ⟨c, s.last, s.depth, lim⟩] ++ st)) (hso : StackOk st1) :
    StepPost T B o s st st1 B5 := by
  have hxb := R.xb
  have hbl := R.bl
  have E4 := S.env (hs.env hl hB)
  have same4 : ∀ p q, s.first ≤ p → p < s.last → s.first ≤ q → q < s.last → (bkey T (o4 p)).take s.depth = (bkey T (o4 q)).take s.depth := fun p q h1 h2 h3 h4 => by
    obtain ⟨p', i1, i2, i3⟩ := S.mem h1 h2
    obtain ⟨q', j1, j2, j3⟩ := S.mem h3 h4
    rw [i3, j3]; exact hs.same p' q' i1 i2 j1 j2
  have Em : Env T s.depth a c B4 o4 := ⟨E4.len, E4.pos, by have := hs.lm; omega, fun p h1 h2 => E4.good p (by omega) (by omega)⟩
  have P5 : PermOn s.first s.last o o5 := PermOn.trans S.perm (R.perm.widen hfa hcl)
  have eo : ∀ p, p < a ∨ c ≤ p → o5 p = o4 p := fun p hp => R.perm.out hp
  have hold5 : ∀ p, s.first ≤ p → p < s.last → (p < a ∨ c ≤ p) → B5[p]? = some (o5 p : Int) := fun p h1 h2 h3 => by
    rw [R.out p h3, eo p h3]; exact S.hold p h1 h2
  have good5 : ∀ p, s.first ≤ p → p < s.last → Good T s.depth (o5 p) := fun p h1 h2 => P5.all (Q := Good T s.depth) hs.good h1 h2
  have same5 : ∀ p q, s.first ≤ p → p < s.last → s.first ≤ q → q < s.last → (bkey T (o5 p)).take s.depth = (bkey T (o5 q)).take s.depth := fun p q h1 h2 h3 h4 => by
    refine P5.all (Q := fun z => (bkey T z).take s.depth = (bkey T (o5 q)).take s.depth) (fun p h1 h2 => ?_) h1 h2
    exact P5.all (Q := fun z => (bkey T (o p)).take s.depth = (bkey T z).take s.depth) (fun q h3 h4 => hs.same p q h1 h2 h3 h4) h3 h4
  have zM5 : ∀ p, a ≤ p → p < c → chr T s.depth (o5 p) = v := fun p h1 h2 => R.perm.all (Q := fun z => chr T s.depth z = v) zM h1 h2
  have hlm := hs.lm
  have sA : SegOk T B5 o5 ⟨s.first, a, s.depth, lim⟩ := by
    refine ⟨hfa, by show a ≤ _; omega, fun p (h1 : s.first ≤ p) (h2 : p < a) => hold5 p h1 (by omega) (by omega),
      fun p (h1 : s.first ≤ p) (h2 : p < a) => good5 p h1 (by omega), fun p q (h1 : s.first ≤ p) (h2 : p < a) (h3 : s.first ≤ q) (h4 : q < a) => same5 p q h1 (by omega) h3 (by omega), hs.two, fun (h : lim < 0) => by omega⟩
  have sR : SegOk T B5 o5 ⟨c, s.last, s.depth, lim⟩ := by
    refine ⟨hcl, hs.lm, fun p (h1 : c ≤ p) (h2 : p < s.last) => hold5 p (by omega) h2 (by omega),
      fun p (h1 : c ≤ p) (h2 : p < s.last) => good5 p (by omega) h2, fun p q (h1 : c ≤ p) (h2 : p < s.last) (h3 : c ≤ q) (h4 : q < s.last) => same5 p q (by omega) h2 (by omega) h4, hs.two, fun (h : lim < 0) => by omega⟩
  have hsm' : ∀ p q, a ≤ p → p < c → a ≤ q → q < c → (bkey T (o4 p)).take s.depth = (bkey T (o4 q)).take s.depth := fun p q h1 h2 h3 h4 =>
    same4 p q (by omega) (by omega) (by omega) (by omega)
  have sM := R.segOk Em zM hsm' hs.two
  refine ⟨_, o5, hst1, ?_, ?_, fun p hp => ⟨by rw [R.out p (by omega), S.out p hp], P5.out hp⟩, by rw [R.len, S.len], ?_, hso, fun B' h1 h2 => ?_⟩
  · refine List.pairwise_cons.mpr ⟨fun t ht => ?_, List.pairwise_cons.mpr ⟨fun t ht => ?_, List.pairwise_singleton _ _⟩⟩
    · rcases List.mem_cons.mp ht with h | h
      · subst h; exact Or.inl hxb
      · rw [List.mem_singleton] at h; subst h; exact Or.inl (by show a ≤ c; omega)
    · rw [List.mem_singleton] at ht; subst ht; exact Or.inl (Nat.le_refl c)
  · intro t ht
    simp only [List.mem_cons, List.not_mem_nil, or_false] at ht
    rcases ht with h | h | h <;> subst h
    · exact ⟨Nat.le_refl _, by show a ≤ _; omega, sA⟩
    · exact ⟨by show _ ≤ b; omega, by show c ≤ _; omega, sM⟩
    · exact ⟨by show _ ≤ c; omega, Nat.le_refl _, sR⟩
  · have w1 := R.wt_lt Em zM hsm'
    have w2 : wt T o s.depth s.first s.last = wt T o4 s.depth s.first s.last := (wt_perm S.perm).symm
    have w3 : wt T o5 s.depth s.first a = wt T o4 s.depth s.first a := wt_congr (fun p _ h => eo p (by omega))
    have w4 : wt T o5 s.depth c s.last = wt T o4 s.depth c s.last := wt_congr (fun p h _ => eo p (by omega))
    have w5 := wt_split (T := T) (o := o4) (d := s.depth) (f := s.first) (l := s.last) (m := a) hfa (by omega)
    have w6 := wt_split (T := T) (o := o4) (d := s.depth) (f := a) (l := s.last) (m := c) (by omega) hcl
    simp only [List.map_cons, List.map_nil, List.sum_cons, List.sum_nil, segW]
    omega
  · refine PostI.perm (o' := o5) ?_ P5
    have pA : PostI T o5 s.first a B' := h1 ⟨s.first, a, s.depth, lim⟩ (by simp)
    have pM : PostI T o5 b c B' := h1 ⟨b, c, s.depth + 1, ssIlg (c - b)⟩ (by simp)
    have pR : PostI T o5 c s.last B' := h1 ⟨c, s.last, s.depth, lim⟩ (by simp)
    have pM' : PostI T o5 a c B' := R.post Em zM hsm' pM (fun p h3 h4 => h2 p (by omega) (by omega) (fun t ht => by
      simp only [List.mem_cons, List.not_mem_nil, or_false] at ht
      rcases ht with h | h | h <;> subst h
      · exact Or.inr h3
      · exact Or.inl h4
      · exact Or.inl (by show p < c; omega)))
    have pAM : PostI T o5 s.first c B' := PostI.glue pA pM' hfa (by omega) (fun p q h3 h4 h5 h6 =>
      key_lt_of_chr (good5 p h3 (by omega)) (good5 q (by omega) (by omega)) (same5 p q h3 (by omega) (by omega) (by omega)) (by
        rw [zM5 q h5 h6, eo p (by omega)]; exact zA p h3 h4))
    exact PostI.glue pAM pR (by omega) hcl (fun p q h3 h4 h5 h6 =>
      key_lt_of_chr (good5 p h3 (by omega)) (good5 q (by omega) h6) (same5 p q h3 (by omega) (by omega) h6) (by
        have hq := zR q h5 h6
        rw [eo q (by omega)]
        by_cases h7 : p < a
        · have := zA p h3 h7
          rw [eo p (by omega)]; omega
        · rw [zM5 p (by omega) h4]; exact hq))

theorem ssPivotStep_spec (hcell : ∀ v : Int, -T.length ≤ v → v < T.length → cell v = v) {s : Seg} {st : List Seg} (hs : SegOk T B o s) (hB : HasPos T B) (hl : B.length = T.length)
    (h8 : 8 < s.last - s.first) (hlim : 0 ≤ s.limit) (hst : StackOk (s :: st)) :
    ∃ s' st' B', ssPivotStep cell T ((T.length : Int) - (bstars T).length) s st B = .ok (s', st', B') ∧ StepPost T B o s st (s' :: st') B' := by
  have E := hs.env hl hB
  have hfl : s.first < s.last := by omega
  have S0 : Sh s.first s.last B B o o := Sh.refl hs.hold
  have h1d := hs.two
  obtain ⟨hs1, hs2⟩ := hst
  obtain ⟨pv, e1, r1, r2⟩ := ssPivot_ok (ch := ssChar T ((T.length : Int) - (bstars T).length) s.depth B) (f := s.first) (l := s.last) (fun p h1 h2 => ⟨_, S0.char E h1 h2⟩) hfl
  obtain ⟨B1, e3, S1⟩ := ssSwap_ok hcell E S0 (p := s.first) (q := pv) (Nat.le_refl _) hfl r1 r2
  obtain ⟨a, b, e, B2, o2, e4, S2, k1, k2, k3, k4, zl, zr1, zr2⟩ := ssScans_spec hcell E S1 (v := chr T s.depth (o pv)) hfl (by rw [swp_left])
  unfold ssPivotStep
  dsimp only
  rw [e1, DSS.bind_ok, S0.char E r1 r2, DSS.bind_ok, e3, DSS.bind_ok, e4, DSS.bind_ok]
  dsimp only
  generalize hv : chr T s.depth (o pv) = v at *
  by_cases hae : a ≤ e
  · rw [if_pos hae]
    obtain ⟨B3, o3, e5, S3, m1, m2⟩ := ssSwapRange_spec hcell E (min (a - s.first) (b - a)) s.first (b - min (a - s.first) (b - a)) B2 o2 S2 (Nat.le_refl _) (by omega) (by omega)
    obtain ⟨B4, o4, e6, S4, n1, n2⟩ := ssSwapRange_spec hcell E (min (e + 1 - b) (s.last - e - 1)) b (s.last - min (e + 1 - b) (s.last - e - 1)) B3 o3 S3 (by omega) (by omega) (by omega)
    obtain ⟨yl1, yl2⟩ := zone_left zl (by omega) k2 m1 m2
    have ge3 : ∀ p, b ≤ p → o3 p = o2 p := fun p hp => m2 p (by omega)
    obtain ⟨yr1, yr2⟩ := zone_right (o := o3) (o' := o4) (v := v) (b := b) (e := e) (l := s.last) (d := s.depth) (T := T)
      (fun p h1 h2 => by rw [ge3 p (by omega)]; exact zr1 p h1 h2) (fun p h1 h2 => by rw [ge3 p h1]; exact zr2 p h1 h2) k3 k4 n1 n2
    have lt4 : ∀ p, p < b → o4 p = o3 p := fun p hp => n2 p (by omega)
    have E4 := S4.env E
    have zA : ∀ p, s.first ≤ p → p < s.first + (b - a) → chr T s.depth (o4 p) < v := fun p h1 h2 => by rw [lt4 p (by omega)]; exact yl1 p h1 h2
    have zM : ∀ p, s.first + (b - a) ≤ p → p < s.last - (e + 1 - b) → chr T s.depth (o4 p) = v := fun p h1 h2 => by
      by_cases h3 : p < b
      · rw [lt4 p h3]; exact yl2 p h1 h3
      · exact yr1 p (by omega) h2
    have same4 : ∀ p q, s.first ≤ p → p < s.last → s.first ≤ q → q < s.last → (bkey T (o4 p)).take s.depth = (bkey T (o4 q)).take s.depth := fun p q h1 h2 h3 h4 => by
      obtain ⟨p', i1, i2, i3⟩ := S4.mem h1 h2
      obtain ⟨q', j1, j2, j3⟩ := S4.mem h3 h4
      rw [i3, j3]; exact hs.same p' q' i1 i2 j1 j2
    have hac : s.first + (b - a) < s.last - (e + 1 - b) := by omega
    obtain ⟨u, e7, b5, B5, o5, e8, R⟩ := part_spec hcell (x := s.first + (b - a)) (y := s.last - (e + 1 - b)) (v := v) (B := B4) (o := o4) (d := s.depth)
      ⟨E4.len, E4.pos, by have := hs.lm; omega, fun p h1 h2 => E4.good p (by omega) (by omega)⟩ h1d hac (fun p h1 h2 => S4.hold p (by omega) (by omega)) zM
      (fun p q h1 h2 h3 h4 => same4 p q (by omega) (by omega) (by omega) (by omega))
    have e8' : (if v ≤ u then (.ok (s.first + (b - a), B4) : Res (Nat × List Int)) else ssPartition cell ((T.length : Int) - (bstars T).length) s.depth (s.first + (b - a)) (s.last - (e + 1 - b)) B4) =
        .ok (b5, B5) := by
      rw [← e8]
      by_cases h : v ≤ u
      · rw [if_pos h, if_neg (by omega)]
      · rw [if_neg h, if_pos (by omega)]
    rw [e5, DSS.bind_ok, e6, DSS.bind_ok, e7, DSS.bind_ok, e8', DSS.bind_ok]
    dsimp only
    generalize ha' : s.first + (b - a) = a' at *
    generalize hc' : s.last - (e + 1 - b) = c' at *
    have hxb := R.xb
    have hbl := R.bl
    have fin : ∀ (s' : Seg) (st' : List Seg), StackOk (s' :: st') →
        (s' :: st').Perm ([⟨s.first, a', s.depth, s.limit⟩, ⟨b5, c', s.depth + 1, ssIlg (c' - b5)⟩, ⟨c', s.last, s.depth, s.limit⟩] ++ st) → StepPost T B o s st (s' :: st') B5 :=
      fun s' st' h1 h2 => pivot_parts hs hlim hB hl S4 (by omega) hac (by omega) zA zM yr2 R h2 h1
    -- the orders of the three parts
    have p2 : ∀ (x y z : Seg), x.last - x.first ≤ y.last - y.first → y.last - y.first ≤ z.last - z.first → (x.last - x.first) + (y.last - y.first) + (z.last - z.first) ≤ s.last - s.first →
        [x, y, z].Perm [⟨s.first, a', s.depth, s.limit⟩, ⟨b5, c', s.depth + 1, ssIlg (c' - b5)⟩, ⟨c', s.last, s.depth, s.limit⟩] →
        ∃ s' st' B', ssPush2 z y x st B5 = .ok (s', st', B') ∧ StepPost T B o s st (s' :: st') B' := fun x y z h1 h2 h3 h4 => by
      obtain ⟨q1, q2⟩ := ssPush2_ok (B := B5) h8 hs1 hs2 h1 h2 h3
      exact ⟨_, _, _, q1, fin _ _ q2 (h4.append_right st)⟩
    generalize hA : (⟨s.first, a', s.depth, s.limit⟩ : Seg) = sA at *
    generalize hM : (⟨b5, c', s.depth + 1, ssIlg (c' - b5)⟩ : Seg) = sM at *
    generalize hR : (⟨c', s.last, s.depth, s.limit⟩ : Seg) = sR at *
    have lA : sA.last - sA.first = a' - s.first := by rw [← hA]
    have lM : sM.last - sM.first = c' - b5 := by rw [← hM]
    have lR : sR.last - sR.first = s.last - c' := by rw [← hR]
    by_cases c1 : a' - s.first ≤ s.last - c'
    · rw [if_pos c1]
      by_cases c2 : s.last - c' ≤ c' - b5
      · rw [if_pos c2]
        exact p2 sA sR sM (by omega) (by omega) (by omega) ((List.Perm.swap _ _ _).cons _)
      · rw [if_neg c2]
        by_cases c3 : a' - s.first ≤ c' - b5
        · rw [if_pos c3]
          exact p2 sA sM sR (by omega) (by omega) (by omega) (List.Perm.refl _)
        · rw [if_neg c3]
          exact p2 sM sA sR (by omega) (by omega) (by omega) (List.Perm.swap _ _ _)
    · rw [if_neg c1]
      by_cases c2 : a' - s.first ≤ c' - b5
      · rw [if_pos c2]
        exact p2 sR sA sM (by omega) (by omega) (by omega) ((List.Perm.swap _ _ _).trans ((List.Perm.swap _ _ _).cons _))
      · rw [if_neg c2]
        by_cases c3 : s.last - c' ≤ c' - b5
        · rw [if_pos c3]
          exact p2 sR sM sA (by omega) (by omega) (by omega) (List.reverse_perm [sA, sM, sR])
        · rw [if_neg c3]
          exact p2 sM sR sA (by omega) (by omega) (by omega) (((List.Perm.swap _ _ _).cons _).trans (List.Perm.swap _ _ _))
  · rw [if_neg hae]
    have zM : ∀ p, s.first ≤ p → p < s.last → chr T s.depth (o2 p) = v := fun p h1 h2 => by
      by_cases h3 : p < a
      · exact zl.1 p h1 h3
      · exact zr1 p (by omega) h2
    have E2 := S2.env E
    have same2 : ∀ p q, s.first ≤ p → p < s.last → s.first ≤ q → q < s.last → (bkey T (o2 p)).take s.depth = (bkey T (o2 q)).take s.depth := fun p q h1 h2 h3 h4 => by
      obtain ⟨p', i1, i2, i3⟩ := S2.mem h1 h2
      obtain ⟨q', j1, j2, j3⟩ := S2.mem h3 h4
      rw [i3, j3]; exact hs.same p' q' i1 i2 j1 j2
    obtain ⟨u, e7, b5, B5, o5, e8, R⟩ := part_spec hcell (x := s.first) (y := s.last) (v := v) (B := B2) (o := o2) (d := s.depth) E2 h1d hfl S2.hold zM same2
    rw [e7, DSS.bind_ok]
    have hxb := R.xb
    have hbl := R.bl
    have key : ∀ lim : Int, (lim < 0 → b5 = s.last) → StepPost T B o s st (⟨b5, s.last, s.depth + 1, lim⟩ :: st) B5 := fun lim hlim' => by
      have sM := R.segOk E2 zM same2 h1d
      refine ⟨[⟨b5, s.last, s.depth + 1, lim⟩], o5, List.Perm.refl _, List.pairwise_singleton _ _, ?_, fun p hp => ⟨by rw [R.out p hp, S2.out p hp], ?_⟩, by rw [R.len, S2.len], ?_, ?_, fun B' h1 h2 => ?_⟩
      · intro t ht
        rw [List.mem_singleton] at ht
        subst ht
        refine ⟨hxb, Nat.le_refl _, sM.fl, sM.lm, sM.hold, sM.good, sM.same, sM.two, fun h p q (h1 : b5 ≤ p) h2 (h3 : q < s.last) => ?_⟩
        have := hlim' h
        omega
      · rw [R.perm.out hp, S2.outo hp]
      · have w1 := R.wt_lt E2 zM same2
        have w2 : wt T o2 s.depth s.first s.last = wt T o s.depth s.first s.last := wt_perm S2.perm
        simp only [List.map_cons, List.map_nil, List.sum_cons, List.sum_nil, segW]
        omega
      · refine ⟨Nat.le_trans (Nat.mul_le_mul_right _ (Nat.pow_le_pow_left ?_ 2)) hs1, hs2⟩
        show s.last - b5 ≤ _
        omega
      · refine PostI.perm (o' := o5) ?_ (PermOn.trans S2.perm R.perm)
        exact R.post E2 zM same2 (h1 ⟨b5, s.last, s.depth + 1, lim⟩ (by simp)) (fun p h3 h4 => h2 p h3 (by omega) (fun t ht => by
          rw [List.mem_singleton] at ht; subst ht; exact Or.inl h4))
    by_cases hu : u < v
    · rw [if_pos hu] at e8
      rw [if_pos hu, e8, DSS.bind_ok, DSS.bind_ok]
      refine ⟨_, _, _, rfl, key _ (fun h => ?_)⟩
      dsimp only at h
      unfold ssIlg at h
      by_contra hc
      rw [if_neg (by omega)] at h
      omega
    · rw [if_neg hu] at e8
      have hb5 : s.first = b5 ∧ B2 = B5 := by
        have := Except.ok.inj e8
        exact ⟨(Prod.mk.inj this).1, (Prod.mk.inj this).2⟩
      rw [if_neg hu, DSS.bind_ok]
      dsimp only
      rw [hb5.2]
      refine ⟨_, _, _, rfl, ?_⟩
      have := key (s.limit + 1) (fun h => by omega)
      rw [← hb5.1] at this
      exact this

end Tdc
