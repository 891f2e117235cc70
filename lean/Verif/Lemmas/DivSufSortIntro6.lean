import Verif.Lemmas.DivSufSortIntro5

/-! # Multikey introsort: a round with the substrings sorted by one character -/

namespace Tdc

open DSS

variable {cell : Int → Int} {T : List UInt8} {d f l : Nat} {B0 B : List Int} {o0 o : Nat → Nat}

theorem ssRun_spec {C : Nat → Nat} {PA depth : Int} (hch : ∀ p, f ≤ p → p < l → ssChar T PA depth B p = .ok (C p)) (srt : ∀ p q, f ≤ p → p < q → q < l → C p ≤ C q) : ∀ (r x a : Nat),
    a + r = l → f ≤ x → x < a → (∀ p, x ≤ p → p < a → C p = C x) → (∀ p q, f ≤ p → p < q → q ≤ x → C p < C q) →
    ∃ x' a', ssRun T PA depth B r x a (C x) = .ok (x', a', C x') ∧ f ≤ x' ∧ x' < a' ∧ a' ≤ l ∧ (∀ p, x' ≤ p → p < a' → C p = C x') ∧
      (∀ p q, f ≤ p → p < q → q ≤ x' → C p < C q) ∧ (a' < l → C x' < C a')
  | 0, x, a, h1, h2, h3, h4, h5 => ⟨x, a, rfl, h2, h3, by omega, h4, h5, fun h => by omega⟩
  | r + 1, x, a, h1, h2, h3, h4, h5 => by
    unfold ssRun
    rw [hch a (by omega) (by omega), DSS.bind_ok]
    have hle := srt x a h2 h3 (by omega)
    by_cases h6 : C a = C x
    · rw [if_pos h6]
      refine ssRun_spec hch srt r x (a + 1) (by omega) h2 (by omega) (fun p h7 h8 => ?_) h5
      by_cases h9 : p = a
      · rw [h9, h6]
      · exact h4 p h7 (by omega)
    · rw [if_neg h6]
      by_cases h7 : 1 < a - x
      · rw [if_pos h7]
        exact ⟨x, a, rfl, h2, h3, by omega, h4, h5, fun _ => by omega⟩
      · rw [if_neg h7]
        refine ssRun_spec hch srt r a (a + 1) (by omega) (by omega) (by omega) (fun p h8 h9 => by rw [show p = a by omega]) (fun p q h8 h9 h10 => ?_)
        by_cases h11 : q ≤ x
        · exact h5 p q h8 h9 h11
        · rw [show q = a by omega]
          by_cases h12 : p = x
          · rw [h12]; omega
          · have := h5 p x h8 (by omega) (Nat.le_refl _)
            omega

theorem run_parts {s : Seg} {st : List Seg} (hs : SegOk T B o s) (hB : HasPos T B) (hl : B.length = T.length)
    (srt : ∀ p q, s.first ≤ p → p < q → q < s.last → chr T s.depth (o p) ≤ chr T s.depth (o q)) {x y b v : Nat} {B1 : List Int} {o1 : Nat → Nat}
    (hfx : s.first ≤ x) (hxy : x < y) (hyl : y ≤ s.last) (hv : ∀ p, x ≤ p → p < y → chr T s.depth (o p) = v)
    (hlt : ∀ p q, s.first ≤ p → p < q → q ≤ x → chr T s.depth (o p) < chr T s.depth (o q)) (hgt : y < s.last → v < chr T s.depth (o y))
    (R : PartRes T s.depth x y B o b B1 o1) (gG gR : Bool) (hG : gG = false → y - b ≤ 1) (hR : gR = false → s.last - y ≤ 1) {st1 : List Seg}
    (hst1 : st1.Perm (((if gG then [(⟨b, y, s.depth + 1, ssIlg (y - b)⟩ : Seg)] else []) ++ (if gR then [(⟨y, s.last, s.depth, -1⟩ : Seg)] else [])) ++ st)) (hso : StackOk st1) :
    StepPost T B o s st st1 B1 := by
  have hxb := R.xb
  have hbl := R.bl
  have hlm := hs.lm
  have hvx : chr T s.depth (o x) = v := hv x (Nat.le_refl _) hxy
  have E := hs.env hl hB
  have Em : Env T s.depth x y B o := ⟨E.len, E.pos, by omega, fun p h1 h2 => E.good p (by omega) (by omega)⟩
  have hsm : ∀ p q, x ≤ p → p < y → x ≤ q → q < y → (bkey T (o p)).take s.depth = (bkey T (o q)).take s.depth := fun p q h1 h2 h3 h4 =>
    hs.same p q (by omega) (by omega) (by omega) (by omega)
  have sM := R.segOk Em hv hsm hs.two
  have P1 : PermOn s.first s.last o o1 := R.perm.widen hfx hyl
  have eo : ∀ p, p < x ∨ y ≤ p → o1 p = o p := fun p hp => R.perm.out hp
  have hold1 : ∀ p, s.first ≤ p → p < s.last → (p < x ∨ y ≤ p) → B1[p]? = some (o1 p : Int) := fun p h1 h2 h3 => by
    rw [R.out p h3, eo p h3]; exact hs.hold p h1 h2
  have good1 : ∀ p, s.first ≤ p → p < s.last → Good T s.depth (o1 p) := fun p h1 h2 => P1.all (Q := Good T s.depth) hs.good h1 h2
  have same1 : ∀ p q, s.first ≤ p → p < s.last → s.first ≤ q → q < s.last → (bkey T (o1 p)).take s.depth = (bkey T (o1 q)).take s.depth := fun p q h1 h2 h3 h4 => by
    refine P1.all (Q := fun z => (bkey T z).take s.depth = (bkey T (o1 q)).take s.depth) (fun p h1 h2 => ?_) h1 h2
    exact P1.all (Q := fun z => (bkey T (o p)).take s.depth = (bkey T z).take s.depth) (fun q h3 h4 => hs.same p q h1 h2 h3 h4) h3 h4
  have v1 : ∀ p, x ≤ p → p < y → chr T s.depth (o1 p) = v := fun p h1 h2 => R.perm.all (Q := fun z => chr T s.depth z = v) hv h1 h2
  have sR : SegOk T B1 o1 ⟨y, s.last, s.depth, -1⟩ := by
    refine ⟨hyl, hs.lm, fun p (h1 : y ≤ p) (h2 : p < s.last) => hold1 p (by omega) h2 (by omega), fun p (h1 : y ≤ p) (h2 : p < s.last) => good1 p (by omega) h2,
      fun p q (h1 : y ≤ p) (h2 : p < s.last) (h3 : y ≤ q) (h4 : q < s.last) => same1 p q (by omega) h2 (by omega) h4, hs.two,
      fun _ p q (h1 : y ≤ p) (h2 : p < q) (h3 : q < s.last) => ?_⟩
    show chr T s.depth (o1 p) ≤ chr T s.depth (o1 q)
    rw [eo p (by omega), eo q (by omega)]
    exact srt p q (by omega) h2 h3
  have hmem : ∀ t, t ∈ ((if gG then [(⟨b, y, s.depth + 1, ssIlg (y - b)⟩ : Seg)] else []) ++ (if gR then [(⟨y, s.last, s.depth, -1⟩ : Seg)] else [])) →
      (gG = true ∧ t = ⟨b, y, s.depth + 1, ssIlg (y - b)⟩) ∨ (gR = true ∧ t = ⟨y, s.last, s.depth, -1⟩) := fun t ht => by
    cases gG <;> cases gR <;> simpa using ht
  refine ⟨_, o1, hst1, ?_, ?_, fun p hp => ⟨R.out p (by omega), P1.out hp⟩, R.len, ?_, hso, fun B' h1 h2 => ?_⟩
  · cases gG <;> cases gR
    · exact List.Pairwise.nil
    · exact List.pairwise_singleton _ _
    · exact List.pairwise_singleton _ _
    · exact List.pairwise_cons.mpr ⟨fun t ht => by
        rw [show t = _ from List.mem_singleton.mp ht]
        exact Or.inl (Nat.le_refl y), List.pairwise_singleton _ _⟩
  · intro t ht
    rcases hmem t ht with ⟨-, h⟩ | ⟨-, h⟩ <;> subst h
    · exact ⟨by show _ ≤ b; omega, by show y ≤ _; omega, sM⟩
    · exact ⟨by show _ ≤ y; omega, Nat.le_refl _, sR⟩
  · have w1 := R.wt_lt Em hv hsm
    have w4 : wt T o1 s.depth y s.last = wt T o s.depth y s.last := wt_congr (fun p h _ => eo p (by omega))
    have w5 := wt_split (T := T) (o := o) (d := s.depth) (f := s.first) (l := s.last) (m := x) hfx (by omega)
    have w6 := wt_split (T := T) (o := o) (d := s.depth) (f := x) (l := s.last) (m := y) (by omega) hyl
    cases gG <;> cases gR <;>
      simp only [if_true, if_false, List.nil_append, List.append_nil, List.singleton_append, List.map_cons, List.map_nil, List.sum_cons, List.sum_nil, segW, Bool.false_eq_true] <;> omega
  · refine PostI.perm (o' := o1) ?_ P1
    have pG : PostI T o1 b y B' := by
      by_cases hg : gG = true
      · exact h1 ⟨b, y, s.depth + 1, ssIlg (y - b)⟩ (by rw [hg]; simp)
      · have hg' : gG = false := by simpa using hg
        have := hG hg'
        refine PostI.strict (fun p h3 h4 => ?_) (fun p q h3 h4 h5 => by omega)
        rw [h2 p (by omega) (by omega) (fun t ht => ?_)]
        · exact sM.hold p h3 h4
        · rcases hmem t ht with ⟨h, -⟩ | ⟨-, h⟩
          · rw [hg'] at h; cases h
          · subst h; exact Or.inl h4
    have pR : PostI T o1 y s.last B' := by
      by_cases hg : gR = true
      · exact h1 ⟨y, s.last, s.depth, -1⟩ (by rw [hg]; simp)
      · have hg' : gR = false := by simpa using hg
        have := hR hg'
        refine PostI.strict (fun p h3 h4 => ?_) (fun p q h3 h4 h5 => by omega)
        rw [h2 p (by omega) (by omega) (fun t ht => ?_)]
        · exact sR.hold p h3 h4
        · rcases hmem t ht with ⟨-, h⟩ | ⟨h, -⟩
          · subst h; exact Or.inr h3
          · rw [hg'] at h; cases h
    have pM' : PostI T o1 x y B' := R.post Em hv hsm pG (fun p h3 h4 => h2 p (by omega) (by omega) (fun t ht => by
      rcases hmem t ht with ⟨-, h⟩ | ⟨-, h⟩ <;> subst h
      · exact Or.inl h4
      · exact Or.inl (by show p < y; omega)))
    have pL : PostI T o1 s.first x B' := by
      refine PostI.strict (fun p h3 h4 => ?_) (fun p q h3 h4 h5 => ?_)
      · rw [h2 p h3 (by omega) (fun t ht => ?_)]
        · exact hold1 p h3 (by omega) (Or.inl h4)
        · rcases hmem t ht with ⟨-, h⟩ | ⟨-, h⟩ <;> subst h
          · exact Or.inl (by show p < b; omega)
          · exact Or.inl (by show p < y; omega)
      · refine key_lt_of_chr (good1 p h3 (by omega)) (good1 q (by omega) (by omega)) (same1 p q h3 (by omega) (by omega) (by omega)) ?_
        rw [eo p (by omega), eo q (by omega)]
        exact hlt p q h3 h4 (by omega)
    have pLM : PostI T o1 s.first y B' := PostI.glue pL pM' hfx (by omega) (fun p q h3 h4 h5 h6 =>
      key_lt_of_chr (good1 p h3 (by omega)) (good1 q (by omega) (by omega)) (same1 p q h3 (by omega) (by omega) (by omega)) (by
        rw [v1 q h5 h6, eo p (by omega), ← hvx]
        exact hlt p x h3 h4 (Nat.le_refl _)))
    exact PostI.glue pLM pR (by omega) hyl (fun p q h3 h4 h5 h6 =>
      key_lt_of_chr (good1 p h3 (by omega)) (good1 q (by omega) h6) (same1 p q h3 (by omega) (by omega) h6) (by
        have hgy := hgt (by omega)
        have hyq : chr T s.depth (o y) ≤ chr T s.depth (o q) := by
          by_cases h : q = y
          · rw [h]
          · exact srt y q (by omega) (by omega) h6
        rw [eo q (by omega)]
        by_cases h7 : p < x
        · have := hlt p x h3 h7 (Nat.le_refl _)
          rw [eo p (by omega)]; omega
        · rw [v1 p (by omega) h4]; omega))

theorem ssRunStep_spec (hcell : ∀ v : Int, -T.length ≤ v → v < T.length → cell v = v) {s : Seg} {st : List Seg} (hs : SegOk T B o s) (hB : HasPos T B) (hl : B.length = T.length)
    (h8 : 8 < s.last - s.first) (srt : ∀ p q, s.first ≤ p → p < q → q < s.last → chr T s.depth (o p) ≤ chr T s.depth (o q)) (hst : StackOk (s :: st)) :
    ∃ s' st' B', ssRunStep cell T ((T.length : Int) - (bstars T).length) s st B = .ok (s', st', B') ∧ StepPost T B o s st (s' :: st') B' := by
  have E := hs.env hl hB
  have hlm := hs.lm
  have S0 : Sh s.first s.last B B o o := Sh.refl hs.hold
  obtain ⟨hs1, hs2⟩ := hst
  have hroom := stack_room h8 hs1
  obtain ⟨x, y, e1, hfx, hxy, hyl, hv, hlt, hgt⟩ := ssRun_spec (C := fun p => chr T s.depth (o p)) (fun p h1 h2 => S0.char E h1 h2) srt (s.last - (s.first + 1)) s.first (s.first + 1)
    (by omega) (Nat.le_refl _) (by omega) (fun p h1 h2 => by rw [show p = s.first by omega]) (fun p q h1 h2 h3 => by omega)
  have Em : Env T s.depth x y B o := ⟨E.len, E.pos, by omega, fun p h1 h2 => E.good p (by omega) (by omega)⟩
  obtain ⟨u, e7, b, B1, o1, e8, R⟩ := part_spec hcell (x := x) (y := y) (v := chr T s.depth (o x)) Em hs.two hxy (fun p h1 h2 => hs.hold p (by omega) (by omega)) hv
    (fun p q h1 h2 h3 h4 => hs.same p q (by omega) (by omega) (by omega) (by omega))
  unfold ssRunStep
  dsimp only at e1 ⊢
  rw [S0.char E (Nat.le_refl _) (by omega), DSS.bind_ok, e1, DSS.bind_ok]
  dsimp only
  rw [e7, DSS.bind_ok, e8, DSS.bind_ok]
  dsimp only
  have hxb := R.xb
  have hbl := R.bl
  have fin := fun (gG gR : Bool) hG hR (st1 : List Seg) h1 h2 => run_parts (st := st) (st1 := st1) hs hB hl srt hfx hxy hyl hv hlt hgt R gG gR hG hR h1 h2
  have k0 : ∀ a, a ≤ s.last - s.first → a ^ 2 * 3 ^ st.length ≤ 1048576 := fun a h => Nat.le_trans (Nat.mul_le_mul_right _ (Nat.pow_le_pow_left h 2)) hs1
  have k1 : ∀ a, 2 * a ≤ s.last - s.first → a ^ 2 * 3 ^ (st.length + 1) ≤ 1048576 := fun a h => by
    generalize s.last - s.first = n at *
    have e : a ^ 2 * 3 ^ (st.length + 1) = a ^ 2 * 3 * 3 ^ st.length := by ring
    rw [e]
    refine Nat.le_trans (Nat.mul_le_mul_right _ ?_) hs1
    nlinarith
  by_cases c1 : y - b ≤ s.last - y
  · rw [if_pos c1]
    by_cases c2 : 1 < y - b
    · rw [if_pos c2, ssPush_ok (by omega), DSS.bind_ok]
      exact ⟨_, _, _, rfl, fin true true (by simp) (by simp) _ (List.Perm.refl _) ⟨k1 (y - b) (by omega), k0 (s.last - y) (by omega), hs2⟩⟩
    · rw [if_neg c2]
      exact ⟨_, _, _, rfl, fin false true (fun _ => by omega) (by simp) _ (List.Perm.refl _) ⟨k0 (s.last - y) (by omega), hs2⟩⟩
  · rw [if_neg c1]
    by_cases c2 : 1 < s.last - y
    · rw [if_pos c2, ssPush_ok (by omega), DSS.bind_ok]
      exact ⟨_, _, _, rfl, fin true true (by simp) (by simp) _ (List.Perm.swap _ _ _) ⟨k1 (s.last - y) (by omega), k0 (y - b) (by omega), hs2⟩⟩
    · rw [if_neg c2]
      exact ⟨_, _, _, rfl, fin true false (by simp) (fun _ => by omega) _ (List.Perm.refl _) ⟨k0 (y - b) (by omega), hs2⟩⟩

end Tdc
