import Verif.Lemmas.DivSufSortMerge4

/-! # `sssort` without the last B* suffix -/

namespace Tdc

open DSS

variable {cell : Int → Int} {T : List UInt8} {B : List Int} {is : List Nat} {sm : SwapMerge}

/-- `ss_isqrt` is the square root as far as one block goes. -/
theorem ssIsqrt_eq : ∀ x, x < 1025 → ssIsqrt x * ssIsqrt x ≤ x ∧ x < (ssIsqrt x + 1) * (ssIsqrt x + 1) := by decide +kernel

theorem ssIsqrt_le (x : Nat) : min 1024 (ssIsqrt x) ≤ x := by
  by_cases h : x < 1025
  · have := (ssIsqrt_eq x h).1
    rcases Nat.eq_zero_or_pos (ssIsqrt x) with h0 | h0
    · omega
    · have := Nat.le_mul_of_pos_right (ssIsqrt x) h0
      omega
  · omega

theorem sqq_ge : ∀ i, i < 256 → 64 ≤ i → 128 ≤ sqqTable.getD i 0 := by decide +kernel

theorem ssIsqrt_pos {x : Nat} (hx : ¬ x < 1025) : ssIsqrt x ≠ 0 := by
  unfold ssIsqrt
  by_cases h1 : 1024 * 1024 ≤ x
  · rw [if_pos h1]; omega
  · rw [if_neg h1]
    dsimp only
    have l1 := Nat.log2_self_le (n := x) (by omega)
    have l2 := Nat.lt_log2_self (n := x)
    have e10 : 10 ≤ Nat.log2 x := by
      by_contra hc
      have : 2 ^ (Nat.log2 x + 1) ≤ 2 ^ 10 := Nat.pow_le_pow_right (by omega) (by omega)
      omega
    have e20 : Nat.log2 x < 20 := by
      by_contra hc
      have : 2 ^ 20 ≤ 2 ^ Nat.log2 x := Nat.pow_le_pow_right (by omega) (by omega)
      omega
    generalize hr : Nat.log2 x = e at *
    have ht : 128 ≤ sqqTable.getD (x >>> (e - 6 - e % 2)) 0 := by
      refine sqq_ge _ ?_ ?_
      · rw [Nat.shiftRight_eq_div_pow]
        refine Nat.div_lt_of_lt_mul ?_
        have h3 : 2 ^ (e + 1) ≤ 2 ^ (e - 6 - e % 2) * 256 := by
          rw [show 256 = 2 ^ 8 from rfl, ← Nat.pow_add]
          exact Nat.pow_le_pow_right (by omega) (by omega)
        omega
      · rw [Nat.shiftRight_eq_div_pow, Nat.le_div_iff_mul_le (Nat.two_pow_pos _)]
        have h3 : 64 * 2 ^ (e - 6 - e % 2) ≤ 2 ^ e := by
          rw [show 64 = 2 ^ 6 from rfl, ← Nat.pow_add]
          exact Nat.pow_le_pow_right (by omega) (by omega)
        omega
    generalize sqqTable.getD (x >>> (e - 6 - e % 2)) 0 = t at *
    by_cases h16 : 16 ≤ e
    · rw [if_pos h16]
      simp only [if_neg (show ¬ 24 ≤ e by omega)]
      have h4 : 128 ≤ t <<< (e / 2 - 7) := by
        rw [Nat.shiftLeft_eq]
        exact Nat.le_trans ht (Nat.le_mul_of_pos_right t (Nat.two_pow_pos _))
      generalize t <<< (e / 2 - 7) = y at *
      have h5 : 64 ≤ (y + 1 + x / y) >>> 1 := by
        rw [Nat.shiftRight_eq_div_pow]
        generalize x / y = z
        omega
      split_ifs <;> omega
    · rw [if_neg h16, if_pos (by omega)]
      have h4 : 16 ≤ t >>> (7 - e / 2) := by
        rw [Nat.shiftRight_eq_div_pow, Nat.le_div_iff_mul_le (Nat.two_pow_pos _)]
        have : 2 ^ (7 - e / 2) ≤ 2 ^ 3 := Nat.pow_le_pow_right (by omega) (by omega)
        omega
      split_ifs <;> omega

theorem good_two {x : Nat} (hx : x + 1 < (bstars T).length) : Good T 2 x := by
  have h2 := bkey_two (T := T) (x := x) (by omega)
  have h4 := key_four (T := T) (d := 0) (x := x) ⟨hx, by omega⟩
  exact ⟨hx, by omega⟩

/-- one block -/
theorem ssMintro2_spec (hcell : ∀ v : Int, -T.length ≤ v → v < T.length → cell v = v) (hb : Bkt T is) (A : Arr T B) {a last : Nat} {us : List Nat} (hu : ∀ y ∈ us, y ∈ is) (pu : Plain B a us)
    (ha : a + us.length = last) (hm : last ≤ (bstars T).length) (h1024 : us.length ≤ 1024) :
    ∃ (B' : List Int) (ks : List Nat), ssMintro2 cell T ((T.length : Int) - (bstars T).length) a last B = .ok B' ∧ ks.Perm us ∧ SortedK T ks ∧ Mk T B' a ks ∧ B'.length = B.length ∧
      ∀ q, q < a ∨ last ≤ q → B'[q]? = B[q]? := by
  subst ha
  have hb' := hb.sub hu
  obtain ⟨B', ks, g1, g2, g3, g4, g5, g6⟩ := ssMintrosort_spec hcell (ssHeapsort_ok hcell) (d := 2) (first := a) (is := us) A.len A.pos (fun x hx => good_two (hb'.mem x hx)) (by omega) hb'.two hm h1024 pu
  exact ⟨B', ks, g1, g3, g4, g5, g2, g6⟩

theorem ssBlocks_spec (hcell : ∀ v : Int, -T.length ≤ v → v < T.length → cell v = v) (hsm : SwapMergeOk T sm) (hb : Bkt T is) {f middle l buf bufsize : Nat} (hml : middle ≤ l) (hlm : l ≤ (bstars T).length)
    (hbuf : BufOk T middle l buf bufsize) : ∀ (fuel a i : Nat) (B : List Int) (js ts : List Nat), middle - a < fuel → Arr T B → Runs T B f 1024 i a js → Plain B a ts → a + ts.length = l → a ≤ middle →
      (i ≠ 0 → a < middle) → (∀ y ∈ js ++ ts, y ∈ is) →
    ∃ (a' i' : Nat) (B' : List Int) (js' ts' : List Nat), ssBlocks cell sm T ((T.length : Int) - (bstars T).length) middle l buf bufsize fuel a i B = .ok (a', i', B') ∧ Runs T B' f 1024 i' a' js' ∧
      Plain B' a' ts' ∧ a' + ts'.length = l ∧ (js' ++ ts').Perm (js ++ ts) ∧ a' ≤ middle ∧ middle - a' ≤ 1024 ∧ (i' ≠ 0 → a' < middle) ∧ Out T f l B B'
  | 0, _, _, _, _, _, h, _, _, _, _, _, _, _ => by omega
  | fuel + 1, a, i, B, js, ts, hf, A, hr, pt, hl, ham, hi, hm => by
    unfold ssBlocks
    by_cases h0 : 1024 < middle - a
    · rw [if_pos h0]
      have hra := hr.len
      have et : ts.take 1024 ++ ts.drop 1024 = ts := List.take_append_drop _ _
      have tl : (ts.take 1024).length = 1024 := by rw [List.length_take]; omega
      have dl : a + 1024 + (ts.drop 1024).length = l := by rw [List.length_drop]; omega
      have pt' := pt
      rw [← et] at pt'
      obtain ⟨p1, p2⟩ := Plain.append.mp pt'
      rw [tl] at p2
      obtain ⟨B1, ks, e1, e2, e3, e4, e5, e6⟩ := ssMintro2_spec hcell hb A (a := a) (last := a + 1024) (us := ts.take 1024)
        (fun y hy => hm y (List.mem_append_right _ (List.mem_of_mem_take hy))) p1 (by rw [tl]) (by omega) (by omega)
      have O1 : Out T f l B B1 := ⟨e5, fun q h1 h2 => e6 q (by omega)⟩
      have A1 := O1.arr A hlm
      have r1 := hr.frame (B' := B1) (fun q h1 h2 => e6 q (by omega))
      have p2' : Plain B1 (a + 1024) (ts.drop 1024) := p2.frame (fun q h1 h2 => e6 q (by omega))
      have kl : ks.length = 1024 := by rw [e2.length_eq, tl]
      have hm' : ∀ y ∈ js ++ ks ++ ts.drop 1024, y ∈ is := fun y hy => by
        simp only [List.mem_append] at hy
        rcases hy with (h | h) | h
        · exact hm y (List.mem_append_left _ h)
        · exact hm y (List.mem_append_right _ (List.mem_of_mem_take (e2.mem_iff.mp h)))
        · exact hm y (List.mem_append_right _ (List.mem_of_mem_drop h))
      have hcar : ∀ cb cs, BufOk T (a + 1024) l cb cs → ∃ (B' : List Int) (js' ts' : List Nat), ssCarry sm cb cs (i + 1) a 1024 i B1 = .ok B' ∧ Runs T B' f 1024 (i + 1) (a + 1024) js' ∧
          js'.Perm (js ++ ks) ∧ ts'.Perm (ts.drop 1024) ∧ Plain B' (a + 1024) ts' ∧ Out T f l B1 B' := fun cb cs hcb =>
        ssCarry_spec hsm hb hlm hcb (i + 1) a 1024 i B1 js ks (ts.drop 1024) (by omega) (by omega) A1 r1 e4 e3 kl rfl hm' p2' dl
      obtain ⟨B2, js2, ts2, g1, g2, g3, g4, g5, g6⟩ : ∃ (B' : List Int) (js' ts' : List Nat), (if l - (a + 1024) ≤ bufsize then ssCarry sm buf bufsize (i + 1) a 1024 i B1
          else ssCarry sm (a + 1024) (l - (a + 1024)) (i + 1) a 1024 i B1) = .ok B' ∧ Runs T B' f 1024 (i + 1) (a + 1024) js' ∧
          js'.Perm (js ++ ks) ∧ ts'.Perm (ts.drop 1024) ∧ Plain B' (a + 1024) ts' ∧ Out T f l B1 B' := by
        by_cases h1 : l - (a + 1024) ≤ bufsize
        · rw [if_pos h1]
          refine hcar buf bufsize ⟨hbuf.1, ?_⟩
          rcases hbuf.2 with h | h
          · exact Or.inl h
          · exact Or.inr ⟨by omega, h.2⟩
        · rw [if_neg h1]
          exact hcar _ _ ⟨by omega, Or.inr ⟨Nat.le_refl _, by omega⟩⟩
      have hperm : (js2 ++ ts2).Perm (js ++ ts) := by
        refine (g3.append g4).trans ?_
        rw [List.append_assoc]
        refine List.Perm.append_left _ ?_
        conv_rhs => rw [← et]
        exact e2.append_right _
      obtain ⟨a', i', B', js', ts', k1, k2, k3, k4, k5, k6, k7, k8, k9⟩ := ssBlocks_spec hcell hsm hb hml hlm hbuf fuel (a + 1024) (i + 1) B2 js2 ts2 (by omega) (g6.arr A1 hlm) g2 g5
        (by rw [g4.length_eq]; exact dl) (by omega) (fun _ => by omega) (fun y hy => hm y (hperm.mem_iff.mp hy))
      rw [e1, DSS.bind_ok, g1, DSS.bind_ok, k1]
      exact ⟨a', i', B', js', ts', rfl, k2, k3, k4, k5.trans hperm, k6, k7, k8, (O1.trans g6).trans k9⟩
    · rw [if_neg h0]
      exact ⟨a, i, B, js, ts, rfl, hr, pt, hl, List.Perm.refl _, ham, by omega, hi, Out.refl _ _ _ _⟩

theorem ssMain_spec (hcell : ∀ v : Int, -T.length ≤ v → v < T.length → cell v = v) (hsm : SwapMergeOk T sm) (hb : Bkt T is) (A : Arr T B) {f middle l buf bufsize : Nat} {ws : List Nat}
    (hfm : f ≤ middle) (hml : middle ≤ l) (hlm : l ≤ (bstars T).length) (hbuf : BufOk T middle l buf bufsize) (pw : Plain B f ws) (hl : f + ws.length = l) (hm : ∀ y ∈ ws, y ∈ is) :
    ∃ (B' : List Int) (ms ts : List Nat), ssMain cell sm T ((T.length : Int) - (bstars T).length) f middle l buf bufsize B = .ok B' ∧ (ms ++ ts).Perm ws ∧ f + ms.length = middle ∧
      SortedK T ms ∧ Mk T B' f ms ∧ Plain B' middle ts ∧ Out T f l B B' := by
  obtain ⟨a, i, B1, js, ts, e1, e2, e3, e4, e5, e6, e7, e8, e9⟩ := ssBlocks_spec hcell hsm hb hml hlm hbuf (middle - f + 1) f 0 B [] ws (by omega) A (Runs.nil _) pw hl hfm (fun h => absurd rfl h)
    (fun y hy => hm y (by simpa using hy))
  have A1 := e9.arr A hlm
  have hra := e2.len
  rw [List.nil_append] at e5
  have et : ts.take (middle - a) ++ ts.drop (middle - a) = ts := List.take_append_drop _ _
  have tl : a + (ts.take (middle - a)).length = middle := by rw [List.length_take]; omega
  have dl : middle + (ts.drop (middle - a)).length = l := by rw [List.length_drop]; omega
  have hts : ∀ y ∈ js ++ ts, y ∈ is := fun y hy => hm y (e5.mem_iff.mp hy)
  have pt' := e3
  rw [← et] at pt'
  obtain ⟨p1, p2⟩ := Plain.append.mp pt'
  rw [tl] at p2
  obtain ⟨B2, ks, g1, g2, g3, g4, g5, g6⟩ := ssMintro2_spec hcell hb A1 (a := a) (last := middle) (us := ts.take (middle - a))
    (fun y hy => hts y (List.mem_append_right _ (List.mem_of_mem_take hy))) p1 tl (by omega) (by rw [List.length_take]; omega)
  have O2 : Out T f l B1 B2 := ⟨g5, fun q h1 h2 => g6 q (by omega)⟩
  have kl := g2.length_eq
  obtain ⟨B3, ms, ts3, k1, k2, k3, k4, k5, k6, k7⟩ := ssFinish_spec hsm hb hlm hbuf (i + 1) a 1024 i B2 js ks (ts.drop (middle - a)) (by omega) (by omega) (O2.arr A1 hlm)
    (e2.frame (fun q h1 h2 => g6 q (by omega))) g4 g3 (fun h => ne_nil_of_length (by have := e8 h; omega)) (by omega) (fun y hy => by
      simp only [List.mem_append] at hy
      rcases hy with (h | h) | h
      · exact hts y (List.mem_append_left _ h)
      · exact hts y (List.mem_append_right _ (List.mem_of_mem_take (g2.mem_iff.mp h)))
      · exact hts y (List.mem_append_right _ (List.mem_of_mem_drop h))) (p2.frame (fun q h1 h2 => g6 q (by omega))) dl
  unfold ssMain
  rw [e1, DSS.bind_ok]
  dsimp only
  rw [g1, DSS.bind_ok, k1]
  refine ⟨B3, ms, ts3, rfl, ?_, ?_, k3, k4, k6, (e9.trans O2).trans k7⟩
  · refine ((k2.append k5).trans ?_).trans e5
    rw [List.append_assoc]
    refine List.Perm.append_left _ ?_
    conv_rhs => rw [← et]
    exact g2.append_right _
  · rw [k2.length_eq, List.length_append]
    omega

/-- `sssort` for all buckets, without the last B* suffix -/
theorem ssRange_spec (hcell : ∀ v : Int, -T.length ≤ v → v < T.length → cell v = v) (hsm : SwapMergeOk T sm) (hb : Bkt T is) (A : Arr T B) {f l : Nat} (hne : is ≠ [])
    (hl : f + is.length = l) (hlm : l ≤ (bstars T).length) (pw : Plain B f is) :
    ∃ (B' : List Int) (js : List Nat), ssRange cell sm T ((T.length : Int) - (bstars T).length) f l (bstars T).length (T.length - 2 * (bstars T).length) B = .ok B' ∧ js.Perm is ∧
      SortedK T js ∧ Mk T B' f js ∧ Out T f l B B' := by
  have h2m := (divsufsort_bstars T).2
  have h0 : 0 < is.length := List.length_pos_iff.mpr hne
  unfold ssRange
  have els : l - f = is.length := by omega
  rw [els]
  by_cases hs : T.length - 2 * (bstars T).length < 1024 ∧ T.length - 2 * (bstars T).length < is.length ∧ T.length - 2 * (bstars T).length < ssIsqrt is.length
  · rw [if_pos hs]
    dsimp only
    have hlim := ssIsqrt_le is.length
    have hpos : 0 < min 1024 (ssIsqrt is.length) := by omega
    have h1024 : min 1024 (ssIsqrt is.length) ≤ 1024 := Nat.min_le_left _ _
    generalize min 1024 (ssIsqrt is.length) = limit at *
    obtain ⟨B1, ms, ts, e1, e2, e3, e4, e5, e6, e7⟩ := ssMain_spec hcell hsm hb A (f := f) (middle := l - limit) (l := l) (buf := l - limit) (bufsize := limit) (ws := is) (by omega) (by omega) hlm
      ⟨hpos, Or.inr ⟨Nat.le_refl _, by omega⟩⟩ pw hl (fun y hy => hy)
    have A1 := e7.arr A hlm
    have hlen := e2.length_eq
    rw [List.length_append] at hlen
    have htl : ts.length = limit := by omega
    obtain ⟨B2, ks, g1, g2, g3, g4, g5, g6⟩ := ssMintro2_spec hcell hb A1 (a := l - limit) (last := l) (us := ts) (fun y hy => e2.mem_iff.mp (List.mem_append_right _ hy)) e6 (by omega) hlm (by omega)
    have O2 : Out T f l B1 B2 := ⟨g5, fun q h1 h2 => g6 q (by omega)⟩
    have A2 := O2.arr A1 hlm
    have hk := g2.length_eq
    have hperm : (ms ++ ks).Perm is := (g2.append_left ms).trans e2
    have hb' := hb.sub (js := ms ++ ks) (fun y hy => hperm.mem_iff.mp hy)
    obtain ⟨B3, k1, k2, ⟨js, k3, k4, k5⟩, k6⟩ := ssInplacemerge_spec hcell (by omega) (d := 2) (ks.length + 1) f ms ks B2 (ne_nil_of_length (by omega)) (by omega)
      ⟨A2.pos, A2.len, hb'.mem, fun x hx y hy => sameTo_two (by have := hb'.mem x hx; omega) (by have := hb'.mem y hy; omega) (hb'.two x hx y hy)⟩
      (e5.frame (fun q h1 h2 => g6 q (by omega))) (by rw [e3]; exact g4) e4 g3 (by omega)
    have ek : l - (l - limit) + 1 = ks.length + 1 := by omega
    have el : f + ms.length + ks.length = l := by omega
    rw [el, e3] at k1
    rw [el] at k6
    rw [e1, DSS.bind_ok, g1, DSS.bind_ok, ek]
    refine ⟨B3, js, k1, k3.trans hperm, k4, k5, (e7.trans O2).trans ⟨k2, fun q h1 _ => k6 q h1⟩⟩
  · rw [if_neg hs]
    obtain ⟨B1, ms, ts, e1, e2, e3, e4, e5, e6, e7⟩ := ssMain_spec hcell hsm hb A (f := f) (middle := l) (l := l) (buf := (bstars T).length) (bufsize := T.length - 2 * (bstars T).length) (ws := is) (by omega) (by omega) hlm
      ⟨by
        by_contra hc
        have hz : T.length - 2 * (bstars T).length = 0 := by omega
        rw [hz] at hs
        have h3 : ssIsqrt is.length = 0 := by omega
        by_cases h4 : is.length < 1025
        · have := (ssIsqrt_eq is.length h4).2
          rw [h3] at this
          omega
        · exact ssIsqrt_pos h4 h3, Or.inl ⟨Nat.le_refl _, by omega⟩⟩ pw hl (fun y hy => hy)
    have htl : ts = [] := List.eq_nil_of_length_eq_zero (by
      have := e2.length_eq
      rw [List.length_append] at this
      omega)
    subst htl
    rw [List.append_nil] at e2
    exact ⟨B1, ms, e1, e2, e4, e5, e7⟩

end Tdc
