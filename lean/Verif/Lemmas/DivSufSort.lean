import Verif.Lemmas.DivSufSortPlace

/-! # Induced sorting: the count of the types, the sorted order of the B* suffixes, `divsufsort_run` -/

namespace Tdc.DSS

variable {cell : Int → Int} {n : Nat} {ch : Nat → Nat} {lt : Nat → Nat → Prop}

/-! ### The reversed text -/

theorem Txt.rev {T : List UInt8} (X : Txt cell n ch lt T) {q : Nat} (hq : q < n) :
    ∃ c : UInt8, (T.take (q + 1)).reverse = c :: (T.take q).reverse ∧ c.toNat = ch q ∧ (T.take q).reverse.length = q := by
  have hl : q < T.length := by rw [X.len]; exact hq
  refine ⟨T[q], ?_, ?_, ?_⟩
  · rw [List.take_succ_eq_append_getElem hl, List.reverse_append]
    rfl
  · have h := X.get q hq
    unfold tget at h
    rw [if_pos (Int.natCast_nonneg q), Int.toNat_natCast, List.getElem?_eq_getElem hl] at h
    injection h
  · rw [List.length_reverse, List.length_take, Nat.min_eq_left (by omega)]

theorem Txt.reverse {T : List UInt8} (X : Txt cell n ch lt T) (hn : 0 < n) :
    ∃ c : UInt8, T.reverse = c :: (T.take (n - 1)).reverse ∧ c.toNat = ch (n - 1) := by
  obtain ⟨c, h1, h2, -⟩ := X.rev (q := n - 1) (by omega)
  refine ⟨c, ?_, h2⟩
  rw [← h1, Nat.sub_add_cancel hn, List.take_of_length_le (by rw [X.len])]

/-! ### Counting -/

structure CInv (n : Nat) (ch : Nat → Nat) (lt : Nat → Nat → Prop) (q : Nat) (s : Cnt) : Prop where
  A : ∀ c, s.A c = cnt n (fun j => q ≤ j ∧ ch j = c ∧ ¬ tB lt j)
  B : ∀ a b, a ≤ b → b < 256 → s.B (bB a b) = cnt n (fun j => q ≤ j ∧ ch j = a ∧ ch (j + 1) = b ∧ tB lt j ∧ tB lt (j + 1))
  S : ∀ a b, a < b → b < 256 → s.B (bS a b) = cnt n (fun j => q ≤ j ∧ ch j = a ∧ ch (j + 1) = b ∧ star lt j)
  sorted : s.stars.Pairwise (· < ·)
  mem : ∀ x, x ∈ s.stars ↔ (q ≤ x ∧ x < n ∧ star lt x)
  half : (tB lt q → 2 * s.stars.length ≤ n - q) ∧ (¬ tB lt q → 2 * s.stars.length + 1 ≤ n - q)

/-- extending a count by one position, on the left -/
theorem cnt_left {P : Nat → Prop} {q : Nat} (hq : q < n) : (P q → cnt n (fun j => q ≤ j ∧ P j) = cnt n (fun j => q + 1 ≤ j ∧ P j) + 1) ∧
    (¬ P q → cnt n (fun j => q ≤ j ∧ P j) = cnt n (fun j => q + 1 ≤ j ∧ P j)) := by
  constructor
  · intro h
    refine cnt_insert hq (by omega) (fun j hj => ?_)
    constructor
    · rintro ⟨h1, h2⟩
      rcases Nat.lt_or_ge q j with h3 | h3
      · exact Or.inl ⟨h3, h2⟩
      · exact Or.inr (by omega)
    · rintro (⟨h1, h2⟩ | rfl)
      · exact ⟨by omega, h2⟩
      · exact ⟨Nat.le_refl _, h⟩
  · intro h
    refine cnt_congr (fun j hj => ?_)
    constructor
    · rintro ⟨h1, h2⟩
      rcases Nat.lt_or_ge q j with h3 | h3
      · exact ⟨h3, h2⟩
      · obtain rfl : j = q := by omega
        exact absurd h2 h
    · rintro ⟨h1, h2⟩
      exact ⟨by omega, h2⟩

theorem CInv.typeA {T : List UInt8} (X : Txt cell n ch lt T) {q : Nat} (hq : q + 1 < n) {s : Cnt} (I : CInv n ch lt (q + 1) s) (hA : ¬ tB lt q) :
    CInv n ch lt q { s with A := upd s.A (ch q) (s.A (ch q) + 1) } where
  A c := by
    have h := cnt_left (n := n) (P := fun j => ch j = c ∧ ¬ tB lt j) (q := q) (by omega)
    dsimp only
    unfold upd
    by_cases hc : c = ch q
    · subst hc
      rw [if_pos rfl, h.1 ⟨rfl, hA⟩, I.A]; push_cast; rfl
    · rw [if_neg hc, h.2 (fun h => hc h.1.symm), I.A]
  B a b hab hb := by
    rw [(cnt_left (n := n) (P := fun j => ch j = a ∧ ch (j + 1) = b ∧ tB lt j ∧ tB lt (j + 1)) (q := q) (by omega)).2 (fun h => hA h.2.2.1)]
    exact I.B a b hab hb
  S a b hab hb := by
    rw [(cnt_left (n := n) (P := fun j => ch j = a ∧ ch (j + 1) = b ∧ star lt j) (q := q) (by omega)).2 (fun h => hA h.2.2.1)]
    exact I.S a b hab hb
  sorted := I.sorted
  mem x := by
    dsimp only
    rw [I.mem]
    constructor
    · rintro ⟨h1, h2⟩; exact ⟨by omega, h2⟩
    · rintro ⟨h1, h2, h3⟩
      refine ⟨?_, h2, h3⟩
      rcases Nat.lt_or_ge q x with h | h
      · exact h
      · obtain rfl : x = q := by omega
        exact absurd h3.1 hA
  half := by
    refine ⟨fun h => absurd h hA, fun _ => ?_⟩
    have := I.half
    by_cases h : tB lt (q + 1)
    · have := this.1 h; dsimp only; omega
    · have := this.2 h; dsimp only; omega

theorem CInv.typeB {T : List UInt8} (X : Txt cell n ch lt T) {q : Nat} (hq : q + 1 < n) {s : Cnt} (I : CInv n ch lt (q + 1) s) (hB : tB lt q)
    (hB1 : tB lt (q + 1)) : CInv n ch lt q { s with B := upd s.B (bB (ch q) (ch (q + 1))) (s.B (bB (ch q) (ch (q + 1))) + 1) } where
  A c := by
    rw [(cnt_left (n := n) (P := fun j => ch j = c ∧ ¬ tB lt j) (q := q) (by omega)).2 (fun h => h.2 hB)]
    exact I.A c
  B a b hab hb := by
    have h := cnt_left (n := n) (P := fun j => ch j = a ∧ ch (j + 1) = b ∧ tB lt j ∧ tB lt (j + 1)) (q := q) (by omega)
    dsimp only
    unfold upd
    by_cases hc : a = ch q ∧ b = ch (q + 1)
    · obtain ⟨rfl, rfl⟩ := hc
      rw [if_pos rfl, h.1 ⟨rfl, rfl, hB, hB1⟩, I.B _ _ hab hb]; push_cast; rfl
    · rw [if_neg (by rw [bB_inj (by omega) (X.lt256 _)]; exact hc), h.2 (fun h => hc ⟨h.1.symm, h.2.1.symm⟩), I.B _ _ hab hb]
  S a b hab hb := by
    have hle := X.O.le_ch (by omega) hq hB
    rw [(cnt_left (n := n) (P := fun j => ch j = a ∧ ch (j + 1) = b ∧ star lt j) (q := q) (by omega)).2 (fun h => h.2.2.2 hB1)]
    dsimp only
    unfold upd
    rw [if_neg (bB_ne_bS (X.lt256 _) hb hle hab).symm]
    exact I.S a b hab hb
  sorted := I.sorted
  mem x := by
    dsimp only
    rw [I.mem]
    constructor
    · rintro ⟨h1, h2⟩; exact ⟨by omega, h2⟩
    · rintro ⟨h1, h2, h3⟩
      refine ⟨?_, h2, h3⟩
      rcases Nat.lt_or_ge q x with h | h
      · exact h
      · obtain rfl : x = q := by omega
        exact absurd hB1 h3.2
  half := by
    refine ⟨fun _ => ?_, fun h => absurd hB h⟩
    have := I.half.1 hB1
    dsimp only
    omega

theorem CInv.typeStar {T : List UInt8} (X : Txt cell n ch lt T) {q : Nat} (hq : q + 1 < n) {s : Cnt} (I : CInv n ch lt (q + 1) s) (hs : star lt q) :
    CInv n ch lt q { s with B := upd s.B (bS (ch q) (ch (q + 1))) (s.B (bS (ch q) (ch (q + 1))) + 1), stars := q :: s.stars } where
  A c := by
    rw [(cnt_left (n := n) (P := fun j => ch j = c ∧ ¬ tB lt j) (q := q) (by omega)).2 (fun h => h.2 hs.1)]
    exact I.A c
  B a b hab hb := by
    have hlt := X.star_lt (by omega) hs
    rw [(cnt_left (n := n) (P := fun j => ch j = a ∧ ch (j + 1) = b ∧ tB lt j ∧ tB lt (j + 1)) (q := q) (by omega)).2 (fun h => hs.2 h.2.2.2)]
    dsimp only
    unfold upd
    rw [if_neg (bB_ne_bS (by omega) (X.lt256 _) hab hlt.2)]
    exact I.B a b hab hb
  S a b hab hb := by
    have h := cnt_left (n := n) (P := fun j => ch j = a ∧ ch (j + 1) = b ∧ star lt j) (q := q) (by omega)
    dsimp only
    unfold upd
    by_cases hc : a = ch q ∧ b = ch (q + 1)
    · obtain ⟨rfl, rfl⟩ := hc
      rw [if_pos rfl, h.1 ⟨rfl, rfl, hs⟩, I.S _ _ hab hb]; push_cast; rfl
    · have e : ¬ bS a b = bS (ch q) (ch (q + 1)) := by
        show ¬ bB b a = bB (ch (q + 1)) (ch q)
        rw [bB_inj hb (X.lt256 _)]
        exact fun h => hc ⟨h.2, h.1⟩
      rw [if_neg e, h.2 (fun h => hc ⟨h.1.symm, h.2.1.symm⟩), I.S _ _ hab hb]
  sorted := by
    dsimp only
    rw [List.pairwise_cons]
    exact ⟨fun x hx => by have := (I.mem x).mp hx; omega, I.sorted⟩
  mem x := by
    dsimp only
    rw [List.mem_cons, I.mem]
    constructor
    · rintro (rfl | ⟨h1, h2⟩)
      · exact ⟨Nat.le_refl _, by omega, hs⟩
      · exact ⟨by omega, h2⟩
    · rintro ⟨h1, h2, h3⟩
      rcases Nat.lt_or_ge q x with h | h
      · exact Or.inr ⟨h, h2, h3⟩
      · exact Or.inl (by omega)
  half := by
    refine ⟨fun _ => ?_, fun h => absurd hs.1 h⟩
    have := I.half.2 hs.2
    dsimp only
    rw [List.length_cons]
    omega

theorem count_spec {T : List UInt8} (X : Txt cell n ch lt T) : ∀ (q : Nat) (isB : Bool) (s : Cnt), q < n → (isB = true ↔ tB lt q) → CInv n ch lt q s →
    CInv n ch lt 0 (count isB (ch q) (T.take q).reverse s)
  | 0, isB, s, _, _, I => by simpa [count] using I
  | q + 1, isB, s, hq, hb, I => by
    obtain ⟨c, e1, e2, e3⟩ := X.rev (q := q) (by omega)
    rw [e1]
    unfold count
    dsimp only
    rw [e2, e3]
    cases isB with
    | true =>
      have hB1 := hb.mp rfl
      rw [if_pos rfl]
      have hp := X.O.pred_B hq hB1
      by_cases hc : ch q ≤ ch (q + 1)
      · rw [if_pos hc]
        exact count_spec X q true _ (by omega) (by simp [hp.mpr hc]) (I.typeB X hq (hp.mpr hc) hB1)
      · rw [if_neg hc]
        have hA : ¬ tB lt q := fun h => hc (hp.mp h)
        exact count_spec X q false _ (by omega) (by simp [hA]) (I.typeA X hq hA)
    | false =>
      have hB1 : ¬ tB lt (q + 1) := fun h => by simpa using hb.mpr h
      rw [if_neg (by simp)]
      have hp := X.O.pred_A hq hB1
      by_cases hc : ch q ≥ ch (q + 1)
      · rw [if_pos hc]
        have hA : ¬ tB lt q := fun h => by have := hp.mp h; omega
        exact count_spec X q false _ (by omega) (by simp [hA]) (I.typeA X hq hA)
      · rw [if_neg hc]
        have hB := hp.mpr (by omega)
        exact count_spec X q true _ (by omega) (by simp [hB]) (I.typeStar X hq ⟨hB, hB1⟩)

theorem countAll_spec {T : List UInt8} (X : Txt cell n ch lt T) (hn : 0 < n) : CInv n ch lt 0 (countAll T) := by
  obtain ⟨c, e1, e2⟩ := X.reverse hn
  have hA : ¬ tB lt (n - 1) := X.O.not_tB_last (by omega)
  unfold countAll
  rw [e1]
  dsimp only
  rw [e2]
  refine count_spec X (n - 1) false _ (by omega) (by simp [hA]) {
    A := fun c => ?_
    B := fun a b _ _ => ?_
    S := fun a b _ _ => ?_
    sorted := List.Pairwise.nil
    mem := fun x => ?_
    half := ⟨fun h => absurd h hA, fun _ => by simp; omega⟩ }
  · dsimp only
    unfold upd
    by_cases h : c = ch (n - 1)
    · subst h
      rw [if_pos rfl, cnt_one (a := n - 1) (by omega)]
      · rfl
      · intro j hj
        constructor
        · intro h; omega
        · rintro rfl; exact ⟨Nat.le_refl _, rfl, hA⟩
    · rw [if_neg h, cnt_zero]
      · rfl
      · rintro j hj ⟨h1, h2, -⟩
        obtain rfl : j = n - 1 := by omega
        exact h h2.symm
  · rw [cnt_zero]
    · rfl
    · rintro j hj ⟨h1, -, -, h2, -⟩
      obtain rfl : j = n - 1 := by omega
      exact hA h2
  · rw [cnt_zero]
    · rfl
    · rintro j hj ⟨h1, -, -, h2⟩
      obtain rfl : j = n - 1 := by omega
      exact hA h2.1
  · simp only [List.not_mem_nil, false_iff]
    rintro ⟨h1, h2, h3⟩
    obtain rfl : x = n - 1 := by omega
    exact hA h3.1

/-! ### The sorted order of the B* suffixes -/

/-- number of B* suffixes before a position -/
noncomputable def idx (n : Nat) (lt : Nat → Nat → Prop) (x : Nat) : Nat := cnt n (fun j => star lt j ∧ j < x)

structure OInv (n : Nat) (lt : Nat → Nat → Prop) (q : Nat) (SA : List Int) : Prop where
  len : SA.length = n
  ranks : ∀ x, x < n → star lt x → SA[cnt n (star lt) + idx n lt x]? = some (rkS n lt x : Int)
  done : ∀ x, x < n → star lt x → q ≤ x → SA[rkS n lt x]? = some (init1 lt x)

theorem idx_succ {t : Nat} (ht : t < n) (hs : star lt t) : idx n lt (t + 1) = idx n lt t + 1 := by
  unfold idx
  refine cnt_insert ht (by omega) (fun j hj => ?_)
  constructor
  · rintro ⟨h1, h2⟩
    rcases Nat.lt_or_ge j t with h | h
    · exact Or.inl ⟨h1, h⟩
    · exact Or.inr (by omega)
  · rintro (⟨h1, h2⟩ | rfl)
    · exact ⟨h1, by omega⟩
    · exact ⟨hs, by omega⟩

theorem put_spec {T : List UInt8} (X : Txt cell n ch lt T) {t : Nat} {i : Int} {SA : List Int} (ht : t < n) (hs : star lt t)
    (hi : (t = 0 ∨ 1 < (t : Int) - i) ↔ (t = 0 ∨ tB lt (t - 1))) (I : OInv n lt (t + 1) SA) :
    ∃ SA', put cell (cnt n (star lt)) t i (idx n lt t + 1) SA = .ok SA' ∧ OInv n lt t SA' := by
  have hr := X.rkS_lt ht hs
  have hle : cnt n (star lt) ≤ n := cnt_le _
  refine ⟨SA.set (rkS n lt t) (init1 lt t), ?_, ?_⟩
  · unfold put
    have e : (cnt n (star lt) : Int) + ((idx n lt t : Int) + 1 - 1) = ((cnt n (star lt) + idx n lt t : Nat) : Int) := by omega
    rw [e, sget_ok (I.ranks t ht hs), bind_ok, sset_ok (X.cell _ (by unfold inv; split_ifs <;> omega) (by unfold inv; split_ifs <;> omega)) (by rw [I.len]; omega)]
    congr 2
    unfold init1
    by_cases h0 : t = 0
    · rw [if_pos (Or.inl h0), if_pos h0]; omega
    · rw [if_neg h0]
      by_cases hB : tB lt (t - 1)
      · rw [if_pos (hi.mpr (Or.inr hB)), if_pos hB]
      · rw [if_neg (fun h => by rcases hi.mp h with h | h; exact h0 h; exact hB h), if_neg hB]
  · exact {
      len := by rw [List.length_set]; exact I.len
      ranks := fun x hx hsx => by
        rw [List.getElem?_set_ne (by omega)]
        exact I.ranks x hx hsx
      done := fun x hx hsx hq => by
        by_cases h : x = t
        · subst h
          rw [List.getElem?_set_self (by rw [I.len]; omega)]
        · rw [List.getElem?_set_ne (fun h' => h (X.rkS_inj hx hsx ht hs h'.symm))]
          exact I.done x hx hsx (by omega) }

theorem setOrder_spec {T : List UInt8} (X : Txt cell n ch lt T) : ∀ (q : Nat) (pend : Option Nat) (j : Int) (SA : List Int), q < n →
    (match pend with
      | none => ¬ tB lt q ∧ j = idx n lt q ∧ OInv n lt q SA
      | some t => q ≤ t ∧ t < n ∧ star lt t ∧ (∀ y, q ≤ y → y ≤ t → tB lt y) ∧ j = idx n lt t + 1 ∧ OInv n lt (t + 1) SA) →
    ∃ SA', setOrder cell (cnt n (star lt)) pend (ch q) (T.take q).reverse j SA = .ok SA' ∧ OInv n lt 0 SA'
  | 0, none, j, SA, hq, h => by
    refine ⟨SA, ?_, h.2.2⟩
    simp [setOrder]
  | 0, some t, j, SA, hq, h => by
    obtain ⟨h1, h2, h3, h4, h5, I⟩ := h
    obtain ⟨SA', e1, e2⟩ := put_spec X (t := t) (i := -1) (SA := SA) h2 h3 (by
      constructor
      · intro h
        by_cases h0 : t = 0
        · exact Or.inl h0
        · exact Or.inr (h4 _ (by omega) (by omega))
      · intro h
        by_cases h0 : t = 0
        · exact Or.inl h0
        · exact Or.inr (by omega)) I
    refine ⟨SA', ?_, ?_⟩
    · rw [List.take_zero, List.reverse_nil, h5]
      unfold setOrder
      exact e1
    · refine ⟨e2.len, e2.ranks, fun x hx hs _ => ?_⟩
      refine e2.done x hx hs ?_
      by_contra hlt
      exact hs.2 (h4 (x + 1) (by omega) (by omega))
  | q + 1, none, j, SA, hq, h => by
    obtain ⟨hA, hj, I⟩ := h
    obtain ⟨c, e1, e2, e3⟩ := X.rev (q := q) (by omega)
    have hp := X.O.pred_A hq hA
    rw [e1]
    unfold setOrder
    rw [e2, e3]
    by_cases hc : ch q ≥ ch (q + 1)
    · rw [if_pos hc]
      have hA' : ¬ tB lt q := fun h => by have := hp.mp h; omega
      refine setOrder_spec X q none j SA (by omega) ⟨hA', ?_, I.len, I.ranks, fun x hx hs hqx => ?_⟩
      · rw [hj]
        congr 1
        unfold idx
        refine cnt_congr (fun y hy => ?_)
        constructor
        · rintro ⟨h1, h2⟩
          refine ⟨h1, ?_⟩
          rcases Nat.lt_or_ge y q with h | h
          · exact h
          · obtain rfl : y = q := by omega
            exact absurd h1.1 hA'
        · rintro ⟨h1, h2⟩; exact ⟨h1, by omega⟩
      · refine I.done x hx hs ?_
        rcases Nat.lt_or_ge q x with h | h
        · exact h
        · obtain rfl : x = q := by omega
          exact absurd hs.1 hA'
    · rw [if_neg hc]
      have hB := hp.mpr (by omega)
      refine setOrder_spec X q (some q) j SA (by omega) ⟨Nat.le_refl _, by omega, ⟨hB, hA⟩, fun y h1 h2 => ?_, ?_, I⟩
      · obtain rfl : y = q := by omega
        exact hB
      · rw [hj, idx_succ (by omega) ⟨hB, hA⟩]; push_cast; rfl
  | q + 1, some t, j, SA, hq, h => by
    obtain ⟨h1, h2, h3, h4, h5, I⟩ := h
    obtain ⟨c, e1, e2, e3⟩ := X.rev (q := q) (by omega)
    have hp := X.O.pred_B hq (h4 _ (Nat.le_refl _) h1)
    rw [e1]
    unfold setOrder
    rw [e2, e3]
    by_cases hc : ch q ≤ ch (q + 1)
    · rw [if_pos hc]
      refine setOrder_spec X q (some t) j SA (by omega) ⟨by omega, h2, h3, fun y hy1 hy2 => ?_, h5, I⟩
      rcases Nat.lt_or_ge q y with h | h
      · exact h4 y h hy2
      · obtain rfl : y = q := by omega
        exact hp.mpr hc
    · rw [if_neg hc]
      have hA : ¬ tB lt q := fun h => hc (hp.mp h)
      obtain ⟨SA', f1, f2⟩ := put_spec X (t := t) (i := (q : Int)) (SA := SA) h2 h3 (by
        constructor
        · intro h
          exact Or.inr (h4 _ (by omega) (by omega))
        · rintro (h | h)
          · omega
          · refine Or.inr ?_
            by_contra hcon
            obtain rfl : q = t - 1 := by omega
            exact hA h) I
      rw [h5, f1, bind_ok]
      refine setOrder_spec X q none _ SA' (by omega) ⟨hA, ?_, f2.len, f2.ranks, fun x hx hs hqx => ?_⟩
      · have : idx n lt t = idx n lt q := by
          unfold idx
          refine cnt_congr (fun y hy => ?_)
          constructor
          · rintro ⟨g1, g2⟩
            refine ⟨g1, ?_⟩
            by_contra hcon
            rcases Nat.lt_or_ge q y with h | h
            · exact g1.2 (h4 (y + 1) (by omega) (by omega))
            · obtain rfl : y = q := by omega
              exact hA g1.1
          · rintro ⟨g1, g2⟩; exact ⟨g1, by omega⟩
        omega
      · refine f2.done x hx hs ?_
        by_contra hcon
        rcases Nat.lt_or_ge q x with h | h
        · exact hs.2 (h4 (x + 1) (by omega) (by omega))
        · obtain rfl : x = q := by omega
          exact hA hs.1

/-! ### Everything -/

/-- what the sorting of the B* suffixes has to leave in the array -/
structure Sorted (n : Nat) (lt : Nat → Nat → Prop) (mid : List Int) : Prop where
  len : mid.length = n
  ranks : ∀ x, x < n → star lt x → mid[cnt n (star lt) + idx n lt x]? = some (rkS n lt x : Int)

theorem Txt.exists_star {T : List UInt8} (X : Txt cell n ch lt T) : ∀ (d i : Nat), i + d = n → i < n → tB lt i → ∃ x, x < n ∧ star lt x
  | 0, i, h, hi, _ => by omega
  | d + 1, i, h, hi, hB => by
    by_cases h1 : tB lt (i + 1)
    · exact X.exists_star d (i + 1) (by omega) (X.O.tB_lt hi hB) h1
    · exact ⟨i, hi, hB, h1⟩

theorem run_spec {T : List UInt8} (X : Txt cell n ch lt T) (hn : 2 ≤ n) {mid : List Int} (S : Sorted n lt mid) :
    ∃ SA', run cell T mid = .ok SA' ∧ SA'.length = n ∧ ∀ i, i < n → SA'[rk n lt i]? = some (i : Int) := by
  have C := countAll_spec X (by omega)
  have hmem : ∀ x, x ∈ (countAll T).stars ↔ x < n ∧ star lt x := fun x => by rw [C.mem]; simp
  have hnd : (countAll T).stars.Nodup := C.sorted.imp (fun h => by omega)
  have hm : (countAll T).stars.length = cnt n (star lt) := by
    have := countP_eq_cnt hnd hmem (fun _ => true)
    simpa using this
  have hs0 : sA n ch 0 = 0 := cnt_zero (fun j _ h => by omega)
  obtain ⟨A, B, e1, hA, hB, hS⟩ := starts_spec X 256 0 0 0 (countAll T).A (countAll T).B rfl
    (fun a ha => by rw [if_neg (by omega), C.A]; unfold nA; simp)
    (fun a b hab hb => by rw [C.B a b hab hb]; unfold nsB; simp)
    (fun a b hab hb => by rw [if_neg (by omega), C.S a b hab hb]; unfold stP; simp)
    (by rw [hs0]; rfl) (by rw [X.stB_first]; rfl)
  unfold run
  dsimp only
  rw [e1, hm]
  dsimp only
  by_cases h0 : 0 < cnt n (star lt)
  · rw [if_pos h0]
    have hne : (countAll T).stars ≠ [] := fun h => by rw [h] at hm; simp at hm; omega
    have hperm : ((countAll T).stars.dropLast.reverse ++ (countAll T).stars.getLast?.toList).Perm (countAll T).stars := by
      rw [List.getLast?_eq_some_getLast hne]
      refine (List.Perm.append_right _ (List.reverse_perm _)).trans (List.Perm.of_eq ?_)
      exact List.dropLast_concat_getLast hne
    obtain ⟨B1, e2, hB1, hS1⟩ := spread_stars X (hperm.nodup_iff.mpr hnd) (fun x => by rw [hperm.mem_iff]; exact hmem x) hB hS
    rw [e2, bind_ok]
    obtain ⟨c, f1, f2⟩ := X.reverse (by omega)
    unfold place
    rw [f1]
    dsimp only
    rw [f2]
    have hidx : idx n lt (n - 1) = cnt n (star lt) := by
      unfold idx
      refine cnt_congr (fun y hy => ?_)
      constructor
      · exact fun h => h.1
      · intro h
        have := X.star_lt hy h
        exact ⟨h, by omega⟩
    obtain ⟨SA1, g1, g2⟩ := setOrder_spec X (n - 1) none (cnt n (star lt)) mid (by omega) ⟨X.O.not_tB_last (by omega), by rw [hidx], S.len, S.ranks,
      fun x hx hs h => absurd hs.1 (X.O.not_tB_last (by omega))⟩
    rw [g1, bind_ok]
    have hall : stB n ch lt 255 256 = cnt n (star lt) := by
      unfold stB
      refine cnt_congr (fun y hy => ?_)
      have h1 := X.lt256 y
      have h2 := X.lt256 (y + 1)
      constructor
      · exact fun h => h.2
      · exact fun h => ⟨by omega, h⟩
    obtain ⟨B2, SA2, k1, k2, k3, k4⟩ := moveAll_spec X hA 255 (cnt n (star lt)) (upd B1 (bB 255 255) T.length) SA1 (Nat.le_refl _) hall.symm
      (fun a b h1 h2 h3 => by
        unfold upd
        rw [if_neg (by rw [bB_inj (by omega) (by omega)]; omega)]
        exact hB1 a b h1 h2)
      (fun a b h1 h2 h3 => by
        unfold upd
        rw [if_neg (bB_ne_bS (by omega) h2 (by omega) h1).symm]
        exact hS1 a b h1 h2)
      (fun a b h1 h2 h3 => by omega) (fun c h1 h2 => by omega)
      ⟨g2.len, fun x hx hs h => g2.done x hx hs (Nat.zero_le _), fun x hx hs h => by have := X.rkS_lt hx hs; omega⟩
    rw [k1, bind_ok]
    exact constructSA_spec X hn hA k2.len (fun h => by omega) (fun _ => k4) (fun _ => k3) (fun _ i hi hs => k2.done i hi hs (Nat.zero_le _))
  · rw [if_neg h0]
    have h := constructSA_spec (m := 0) (B := B) X hn hA S.len (fun _ i hi hB => by
      obtain ⟨x, hx, hs⟩ := X.exists_star (n - i) i (by omega) hi hB
      exact h0 (cnt_pos hx hs)) (fun h => by omega) (fun h => by omega) (fun h => by omega)
    exact h

end Tdc.DSS
