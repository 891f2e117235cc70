import Verif.Lemmas.DivSufSortDist

/-! # Sorting the buckets of the B* suffixes -/

namespace Tdc

open DSS

variable {cell : Int → Int} {T : List UInt8}

theorem bkey_two {x : Nat} (hx : x < (bstars T).length) : 2 ≤ (bkey T x).length := by
  rw [bkey_length hx]
  unfold klen
  have h := (bst_next hx).1
  split
  · rename_i h1
    have := (stars_bst T).gap h1
    omega
  · omega

/-- Buckets with smaller characters hold smaller substrings. -/
theorem bkey_pair_lt {x y : Nat} (hx : x < (bstars T).length) (hy : y < (bstars T).length)
    (h : dssCh T (bst T x) < dssCh T (bst T y) ∨ dssCh T (bst T x) = dssCh T (bst T y) ∧ dssCh T (bst T x + 1) < dssCh T (bst T y + 1)) : bkey T x < bkey T y := by
  have h2x := bkey_two hx
  have h2y := bkey_two hy
  have ex0 := bkey_get hx (q := 0) (by omega)
  have ex1 := bkey_get hx (q := 1) (by omega)
  have ey0 := bkey_get hy (q := 0) (by omega)
  have ey1 := bkey_get hy (q := 1) (by omega)
  rw [Nat.add_zero] at ex0 ey0
  rw [List.lt_iff_exists]
  right
  rcases h with h | ⟨h1, h2⟩
  · exact ⟨0, by omega, by omega, fun j hj => by omega, UInt8.lt_iff_toNat_lt.mpr (by omega)⟩
  · refine ⟨1, by omega, by omega, fun j hj => ?_, UInt8.lt_iff_toNat_lt.mpr (by omega)⟩
    have : j = 0 := by omega
    subst this
    exact UInt8.toNat_inj.mp (by omega)

theorem bkey_take_two {x y : Nat} (hx : x < (bstars T).length) (hy : y < (bstars T).length)
    (h0 : dssCh T (bst T x) = dssCh T (bst T y)) (h1 : dssCh T (bst T x + 1) = dssCh T (bst T y + 1)) : (bkey T x).take 2 = (bkey T y).take 2 := by
  have h2x := bkey_two hx
  have h2y := bkey_two hy
  have ex0 := bkey_get hx (q := 0) (by omega)
  have ex1 := bkey_get hx (q := 1) (by omega)
  have ey0 := bkey_get hy (q := 0) (by omega)
  have ey1 := bkey_get hy (q := 1) (by omega)
  rw [Nat.add_zero] at ex0 ey0
  apply List.ext_getElem
  · rw [List.length_take, List.length_take]; omega
  · intro i hi hi'
    rw [List.length_take] at hi
    rw [List.getElem_take, List.getElem_take]
    apply UInt8.toNat_inj.mp
    obtain rfl | rfl : i = 0 ∨ i = 1 := by omega
    · omega
    · omega

/-- The buckets from `(c0, c1)` on are sorted. -/
structure BktInv (T : List UInt8) (c0 c1 : Nat) (SA : List Int) (ord : List Nat) : Prop where
  len : SA.length = T.length
  pa : ∀ x, x < (bstars T).length → SA[T.length - (bstars T).length + x]? = some (bst T x : Int)
  low : ∀ a b, a < b → b < 256 → (a < c0 ∨ a = c0 ∧ b < c1) → ∀ (k x : Nat), (dssSeg T a b (dssOrder (bstars T).length))[k]? = some x →
    SA[dssLo T a b + k]? = some (x : Int)
  size : ord.length + dssLo T c0 c1 = (bstars T).length
  cells : ∀ k, k < ord.length → SA[dssLo T c0 c1 + k]? = marked T ord k
  sorted : ord.Pairwise (fun x y => ¬ bkey T y < bkey T x)
  nodup : ord.Nodup
  mem : ∀ x ∈ ord, x < (bstars T).length ∧ ¬ (dssCh T (bst T x) < c0 ∨ dssCh T (bst T x) = c0 ∧ dssCh T (bst T x + 1) < c1)

theorem BktInv.next {c : Nat} {SA : List Int} {ord : List Nat} (I : BktInv T (c + 1) (c + 2) SA ord) : BktInv T c 256 SA ord := by
  have X := dss_txt (cell := id) T (fun _ _ _ => rfl)
  have e : dssLo T c 256 = dssLo T (c + 1) (c + 2) := X.stB_next c
  refine ⟨I.len, I.pa, fun a b h1 h2 h3 => I.low a b h1 h2 (by omega), by rw [e]; exact I.size, by rw [e]; exact I.cells, I.sorted, I.nodup, fun x hx => ?_⟩
  obtain ⟨h1, h2⟩ := I.mem x hx
  obtain ⟨h3, h4⟩ := bst_next h1
  exact ⟨h1, by omega⟩

/-- one bucket more -/
theorem BktInv.add {c0 c1 : Nat} {SA SA' : List Int} {ord js : List Nat} (I : BktInv T c0 (c1 + 1) SA ord) (hlt : c0 < c1) (h256 : c1 < 256)
    (hlen : SA'.length = SA.length) (hp : js.Perm (dssSeg T c0 c1 (dssOrder (bstars T).length))) (hs : js.Pairwise (fun x y => ¬ bkey T y < bkey T x))
    (hc : ∀ k, k < js.length → SA'[dssLo T c0 c1 + k]? = marked T js k)
    (hu : ∀ p, p < dssLo T c0 c1 ∨ (dssLo T c0 (c1 + 1) ≤ p ∧ p < (bstars T).length) ∨ T.length - (bstars T).length ≤ p → SA'[p]? = SA[p]?)
    (hm0 : 0 < (bstars T).length) : BktInv T c0 c1 SA' (js ++ ord) := by
  have h2m := (divsufsort_bstars T).2
  obtain ⟨f1, f2, f3⟩ := dssSeg_final (T := T) hm0 c0 c1
  have hl : js.length = (List.range (bstars T).length).countP (dssPair T c0 c1) := by
    rw [hp.length_eq, dssSeg_length, (dssOrder_perm hm0).countP_eq]
  have hsz := dssLo_succ (T := T) c0 c1
  have hI := I.size
  have hjs : ∀ x ∈ js, x < (bstars T).length ∧ dssCh T (bst T x) = c0 ∧ dssCh T (bst T x + 1) = c1 := fun x hx => by
    have h := (f2 x).mp (hp.mem_iff.mp hx)
    have h2 := h.2
    unfold dssPair at h2
    rw [decide_eq_true_eq] at h2
    exact ⟨h.1, h2⟩
  have hcross : ∀ x ∈ js, ∀ y ∈ ord, bkey T x < bkey T y := fun x hx y hy => by
    obtain ⟨a1, a2, a3⟩ := hjs x hx
    obtain ⟨b1, b2⟩ := I.mem y hy
    exact bkey_pair_lt a1 b1 (by omega)
  refine ⟨by rw [hlen, I.len], ?_, ?_, ?_, ?_, ?_, ?_, ?_⟩
  · intro x hx
    rw [hu _ (Or.inr (Or.inr (by omega)))]
    exact I.pa x hx
  · intro a b h1 h2 h3 k x hk
    have hkl := (List.getElem?_eq_some_iff.mp hk).1
    rw [dssSeg_length, (dssOrder_perm hm0).countP_eq] at hkl
    have h4 := dssLo_succ (T := T) a b
    have h5 := dssLo_disj (T := T) a b c0 c1 h3
    rw [hu _ (Or.inl (by omega))]
    exact I.low a b h1 h2 (by omega) k x hk
  · rw [List.length_append]; omega
  · intro k hk
    rw [List.length_append] at hk
    by_cases h : k < js.length
    · rw [hc k h]
      unfold marked
      rw [List.getElem?_append_left h, List.getElem?_append_left (by omega)]
    · have e : dssLo T c0 c1 + k = dssLo T c0 (c1 + 1) + (k - js.length) := by omega
      rw [e, hu _ (Or.inr (Or.inl ⟨by omega, by omega⟩)), I.cells _ (by omega)]
      have ek : (js ++ ord)[k]? = ord[k - js.length]? := List.getElem?_append_right (by omega)
      rcases Nat.lt_or_eq_of_le (show js.length ≤ k by omega) with h' | h'
      · have ek' : (js ++ ord)[k - 1]? = ord[k - js.length - 1]? := by
          rw [List.getElem?_append_right (by omega)]
          congr 1; omega
        have e2 : (0 < k - js.length) ↔ 0 < k := by omega
        unfold marked
        rw [ek, ek']
        simp only [e2]
      · subst h'
        have hl0 : 0 < ord.length := by omega
        rw [Nat.sub_self] at ek ⊢
        rw [List.getElem?_eq_getElem hl0] at ek
        unfold marked
        rw [ek, List.getElem?_eq_getElem hl0]
        simp only [Option.map_some, Nat.lt_irrefl, false_and, if_false, Option.some.injEq]
        rw [if_neg]
        rintro ⟨h1, h2⟩
        rw [List.getElem?_append_left (by omega), List.getElem?_eq_getElem (by omega)] at h2
        simp only [Option.map_some, Option.some.injEq] at h2
        have := hcross _ (List.getElem_mem (show js.length - 1 < js.length by omega)) _ (List.getElem_mem hl0)
        rw [h2] at this
        exact lex_irrefl _ this
  · rw [List.pairwise_append]
    exact ⟨hs, I.sorted, fun x hx y hy h => lex_irrefl _ (lex_trans h (hcross x hx y hy))⟩
  · rw [List.nodup_append]
    refine ⟨hp.nodup_iff.mpr f1, I.nodup, fun x hx y hy h => ?_⟩
    subst h
    exact lex_irrefl _ (hcross x hx x hy)
  · intro x hx
    rcases List.mem_append.mp hx with h | h
    · obtain ⟨a1, a2, a3⟩ := hjs x h
      exact ⟨a1, by omega⟩
    · obtain ⟨b1, b2⟩ := I.mem x h
      exact ⟨b1, by omega⟩

theorem marked_single {js : List Nat} (h : js.length ≤ 1) (k x : Nat) (hk : js[k]? = some x) : marked T js k = some (x : Int) := by
  have hkl := (List.getElem?_eq_some_iff.mp hk).1
  unfold marked
  rw [hk]
  have : ¬ 0 < k := by omega
  simp [this]

theorem sortIn_spec {sss : SubSort} (hsss : SubSortOk T sss) (hm0 : 0 < (bstars T).length) {B : Nat → Int}
    (hB : ∀ a b, a < b → b < 256 → B (bS a b) = dssLo T a b) {c0 : Nat} : ∀ (d : Nat) (SA : List Int) (ord : List Nat), c0 + d < 256 →
    BktInv T c0 (c0 + d + 1) SA ord → ∃ SA' ord', sortIn sss (bstars T).length B c0 d (dssLo T c0 (c0 + d + 1)) SA = .ok ((dssLo T c0 (c0 + 1) : Int), SA') ∧
      BktInv T c0 (c0 + 1) SA' ord'
  | 0, SA, ord, _, I => ⟨SA, ord, rfl, I⟩
  | d + 1, SA, ord, hd, I => by
    have hlt : c0 < c0 + (d + 1) := by omega
    obtain ⟨f1, f2, f3⟩ := dssSeg_final (T := T) hm0 c0 (c0 + (d + 1))
    have hl : (dssSeg T c0 (c0 + (d + 1)) (dssOrder (bstars T).length)).length = (List.range (bstars T).length).countP (dssPair T c0 (c0 + (d + 1))) := by
      rw [dssSeg_length, (dssOrder_perm hm0).countP_eq]
    have hsz := dssLo_succ (T := T) c0 (c0 + (d + 1))
    have hle := dssLo_le (T := T) c0 (c0 + (d + 1) + 1)
    have hlow := I.low c0 (c0 + (d + 1)) hlt hd (by omega)
    unfold sortIn
    dsimp only
    rw [hB _ _ hlt hd]
    by_cases h1 : 1 < (dssSeg T c0 (c0 + (d + 1)) (dssOrder (bstars T).length)).length
    · rw [if_pos (by omega)]
      have hpair : ∀ x ∈ dssSeg T c0 (c0 + (d + 1)) (dssOrder (bstars T).length),
          x < (bstars T).length ∧ dssCh T (bst T x) = c0 ∧ dssCh T (bst T x + 1) = c0 + (d + 1) := fun x hx => by
        have h := (f2 x).mp hx
        have h2 := h.2
        unfold dssPair at h2
        rw [decide_eq_true_eq] at h2
        exact ⟨h.1, h2⟩
      obtain ⟨SA', js, g1, g2, g3, g4, g5, g6⟩ := hsss SA (dssLo T c0 (c0 + (d + 1))) (dssSeg T c0 (c0 + (d + 1)) (dssOrder (bstars T).length)) I.len
        (fun k x hk => by
          have hkl := (List.getElem?_eq_some_iff.mp hk).1
          rw [bst_get hkl] at hk
          injection hk with hk
          rw [← hk]
          exact I.pa k hkl) h1 f1 (fun x hx => (hpair x hx).1) (by omega)
        (fun x hx y hy => by
          obtain ⟨a1, a2, a3⟩ := hpair x hx
          obtain ⟨b1, b2, b3⟩ := hpair y hy
          exact bkey_take_two a1 b1 (by omega) (by omega)) f3 hlow
      have hlast : dssLo T c0 (c0 + (d + 1)) + (dssSeg T c0 (c0 + (d + 1)) (dssOrder (bstars T).length)).length = dssLo T c0 (c0 + (d + 1) + 1) := by omega
      rw [hlast] at g1 g6
      obtain ⟨x, hx⟩ : ∃ x, (dssSeg T c0 (c0 + (d + 1)) (dssOrder (bstars T).length))[0]? = some x := ⟨_, List.getElem?_eq_getElem (by omega)⟩
      have hget := hlow 0 x hx
      rw [Nat.add_zero] at hget
      have hflag : ((x : Int) == ((bstars T).length : Int) - 1) = ((dssSeg T c0 (c0 + (d + 1)) (dssOrder (bstars T).length))[0]? == some ((bstars T).length - 1)) := by
        rw [hx, Bool.eq_iff_iff, beq_iff_eq, beq_iff_eq, Option.some.injEq]
        omega
      rw [sget_ok hget, bind_ok, hflag]
      have e0 : c0 + (d + 1) + 1 = c0 + (d + 1) + 1 := rfl
      rw [g1, bind_ok]
      exact sortIn_spec hsss hm0 hB d SA' _ (by omega) (I.add hlt hd g2 g3 g4 g5 g6 hm0)
    · rw [if_neg (by omega), bind_ok]
      refine sortIn_spec hsss hm0 hB d SA _ (by omega) (I.add hlt hd rfl (List.Perm.refl _) ?_ ?_ (fun _ _ => rfl) hm0)
      · match h : dssSeg T c0 (c0 + (d + 1)) (dssOrder (bstars T).length) with
        | [] => exact List.Pairwise.nil
        | [x] => exact List.pairwise_singleton _ _
        | x :: y :: l => rw [h] at h1; simp at h1
      · intro k hk
        obtain ⟨x, hx⟩ : ∃ x, (dssSeg T c0 (c0 + (d + 1)) (dssOrder (bstars T).length))[k]? = some x := ⟨_, List.getElem?_eq_getElem hk⟩
        rw [hlow k x hx, marked_single (by omega) k x hx]

theorem sortAll_spec {sss : SubSort} (hsss : SubSortOk T sss) (hm0 : 0 < (bstars T).length) {B : Nat → Int}
    (hB : ∀ a b, a < b → b < 256 → B (bS a b) = dssLo T a b) : ∀ (c : Nat) (SA : List Int) (ord : List Nat), c < 256 → BktInv T c (c + 1) SA ord →
    ∃ SA' ord' c0 c1, sortAll sss (bstars T).length B c (dssLo T c (c + 1)) SA = .ok SA' ∧ dssLo T c0 c1 = 0 ∧ BktInv T c0 c1 SA' ord'
  | 0, SA, ord, _, I => by
    have h0 : dssLo T 0 1 = 0 := (dss_txt (cell := id) T (fun _ _ _ => rfl)).stB_first
    refine ⟨SA, ord, 0, 1, ?_, h0, I⟩
    unfold sortAll
    rw [if_neg (by rw [h0]; decide)]
  | c + 1, SA, ord, hc, I => by
    unfold sortAll
    by_cases h : 0 < (dssLo T (c + 1) (c + 1 + 1) : Int)
    · rw [if_pos h]
      have e : dssLo T (c + 1) (c + 1 + 1) = dssLo T c 256 := ((dss_txt (cell := id) T (fun _ _ _ => rfl)).stB_next c).symm
      have ec : c + (255 - c) + 1 = 256 := by omega
      obtain ⟨SA1, ord1, g1, g2⟩ := sortIn_spec hsss hm0 hB (c0 := c) (255 - c) SA ord (by omega) (by rw [ec]; exact I.next)
      rw [ec] at g1
      obtain ⟨SA2, ord2, d0, d1, h1, h2, h3⟩ := sortAll_spec hsss hm0 hB c SA1 ord1 (by omega) g2
      refine ⟨SA2, ord2, d0, d1, ?_, h2, h3⟩
      rw [e, g1, bind_ok]
      exact h1
    · rw [if_neg h]
      exact ⟨SA, ord, c + 1, c + 1 + 1, rfl, by omega, I⟩

end Tdc
