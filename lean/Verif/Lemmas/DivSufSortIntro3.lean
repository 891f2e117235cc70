import Verif.Lemmas.DivSufSortIntro2

/-! # Multikey introsort: the pivot, `ss_partition`, and sorted parts -/

namespace Tdc

open DSS

variable {cell : Int → Int} {T : List UInt8} {d f l : Nat} {B0 B : List Int} {o0 o : Nat → Nat}

/-! ### The pivot -/

theorem ssMedian3_ok {ch : Nat → Res Nat} (h : ∀ p, f ≤ p → p < l → ∃ x, ch p = .ok x) {v1 v2 v3 : Nat} (h1 : f ≤ v1 ∧ v1 < l) (h2 : f ≤ v2 ∧ v2 < l) (h3 : f ≤ v3 ∧ v3 < l) :
    ∃ a, ssMedian3 ch v1 v2 v3 = .ok a ∧ f ≤ a ∧ a < l := by
  obtain ⟨x1, e1⟩ := h v1 h1.1 h1.2
  obtain ⟨x2, e2⟩ := h v2 h2.1 h2.2
  obtain ⟨x3, e3⟩ := h v3 h3.1 h3.2
  unfold ssMedian3
  rw [e1, DSS.bind_ok, e2, DSS.bind_ok]
  dsimp only
  by_cases h4 : x2 < x1
  · rw [if_pos h4, if_pos h4, e1, DSS.bind_ok, e3, DSS.bind_ok, e2]
    split
    · rw [DSS.bind_ok]
      split
      · exact ⟨_, rfl, h2⟩
      · exact ⟨_, rfl, h3⟩
    · exact ⟨_, rfl, h1⟩
  · rw [if_neg h4, if_neg h4, e2, DSS.bind_ok, e3, DSS.bind_ok, e1]
    split
    · rw [DSS.bind_ok]
      split
      · exact ⟨_, rfl, h1⟩
      · exact ⟨_, rfl, h3⟩
    · exact ⟨_, rfl, h2⟩

theorem ssOrd_ok {ch : Nat → Res Nat} (h : ∀ p, f ≤ p → p < l → ∃ x, ch p = .ok x) {v w : Nat} (h1 : f ≤ v ∧ v < l) (h2 : f ≤ w ∧ w < l) : ∃ s, ssOrd ch v w = .ok s := by
  obtain ⟨x1, e1⟩ := h v h1.1 h1.2
  obtain ⟨x2, e2⟩ := h w h2.1 h2.2
  unfold ssOrd
  rw [e1, DSS.bind_ok, e2, DSS.bind_ok]
  exact ⟨_, rfl⟩

theorem ssMedian5_ok {ch : Nat → Res Nat} (h : ∀ p, f ≤ p → p < l → ∃ x, ch p = .ok x) {v1 v2 v3 v4 v5 : Nat} (h1 : f ≤ v1 ∧ v1 < l) (h2 : f ≤ v2 ∧ v2 < l)
    (h3 : f ≤ v3 ∧ v3 < l) (h4 : f ≤ v4 ∧ v4 < l) (h5 : f ≤ v5 ∧ v5 < l) : ∃ a, ssMedian5 ch v1 v2 v3 v4 v5 = .ok a ∧ f ≤ a ∧ a < l := by
  have K : ∀ v w (g : Bool → Res Nat), (f ≤ v ∧ v < l) → (f ≤ w ∧ w < l) → (∀ s, ∃ a, g s = .ok a ∧ f ≤ a ∧ a < l) →
      ∃ a, (ssOrd ch v w).bind g = .ok a ∧ f ≤ a ∧ a < l := fun v w g hv hw hg => by
    obtain ⟨s, hs⟩ := ssOrd_ok h hv hw
    rw [hs, DSS.bind_ok]
    exact hg s
  unfold ssMedian5
  refine K _ _ _ h2 h3 (fun s => ?_)
  obtain ⟨w2, w3, e, i2, i3⟩ : ∃ w2 w3, (if s = true then (v3, v2) else (v2, v3)) = (w2, w3) ∧ (f ≤ w2 ∧ w2 < l) ∧ (f ≤ w3 ∧ w3 < l) := by
    cases s
    · exact ⟨_, _, rfl, h2, h3⟩
    · exact ⟨_, _, rfl, h3, h2⟩
  rw [e]; dsimp only
  refine K _ _ _ h4 h5 (fun s => ?_)
  obtain ⟨w4, w5, e, i4, i5⟩ : ∃ w4 w5, (if s = true then (v5, v4) else (v4, v5)) = (w4, w5) ∧ (f ≤ w4 ∧ w4 < l) ∧ (f ≤ w5 ∧ w5 < l) := by
    cases s
    · exact ⟨_, _, rfl, h4, h5⟩
    · exact ⟨_, _, rfl, h5, h4⟩
  rw [e]; dsimp only
  refine K _ _ _ i2 i4 (fun s => ?_)
  obtain ⟨x2, x4, x3, x5, e, j2, j4, j3, j5⟩ : ∃ x2 x4 x3 x5, (if s = true then (w4, w2, w5, w3) else (w2, w4, w3, w5)) = (x2, x4, x3, x5) ∧ (f ≤ x2 ∧ x2 < l) ∧
      (f ≤ x4 ∧ x4 < l) ∧ (f ≤ x3 ∧ x3 < l) ∧ (f ≤ x5 ∧ x5 < l) := by
    cases s
    · exact ⟨_, _, _, _, rfl, i2, i4, i3, i5⟩
    · exact ⟨_, _, _, _, rfl, i4, i2, i5, i3⟩
  rw [e]; dsimp only
  refine K _ _ _ h1 j3 (fun s => ?_)
  obtain ⟨y1, y3, e, k1, k3⟩ : ∃ y1 y3, (if s = true then (x3, v1) else (v1, x3)) = (y1, y3) ∧ (f ≤ y1 ∧ y1 < l) ∧ (f ≤ y3 ∧ y3 < l) := by
    cases s
    · exact ⟨_, _, rfl, h1, j3⟩
    · exact ⟨_, _, rfl, j3, h1⟩
  rw [e]; dsimp only
  refine K _ _ _ k1 j4 (fun s => ?_)
  obtain ⟨z4, z3, e, m4, m3⟩ : ∃ z4 z3, (if s = true then (y1, x5) else (x4, y3)) = (z4, z3) ∧ (f ≤ z4 ∧ z4 < l) ∧ (f ≤ z3 ∧ z3 < l) := by
    cases s
    · exact ⟨_, _, rfl, j4, k3⟩
    · exact ⟨_, _, rfl, k1, j5⟩
  rw [e]; dsimp only
  refine K _ _ _ m3 m4 (fun s => ?_)
  cases s
  · exact ⟨_, rfl, m3⟩
  · exact ⟨_, rfl, m4⟩

theorem ssPivot_ok {ch : Nat → Res Nat} (h : ∀ p, f ≤ p → p < l → ∃ x, ch p = .ok x) (hfl : f < l) : ∃ a, ssPivot ch f l = .ok a ∧ f ≤ a ∧ a < l := by
  unfold ssPivot
  dsimp only
  by_cases h1 : l - f ≤ 512
  · rw [if_pos h1]
    by_cases h2 : l - f ≤ 32
    · rw [if_pos h2]
      exact ssMedian3_ok h (by omega) (by omega) (by omega)
    · rw [if_neg h2]
      exact ssMedian5_ok h (by omega) (by omega) (by omega) (by omega) (by omega)
  · rw [if_neg h1]
    obtain ⟨a1, e1, r1⟩ := ssMedian3_ok h (v1 := f) (v2 := f + (l - f) / 8) (v3 := f + 2 * ((l - f) / 8)) (by omega) (by omega) (by omega)
    obtain ⟨a2, e2, r2⟩ := ssMedian3_ok h (v1 := f + (l - f) / 2 - (l - f) / 8) (v2 := f + (l - f) / 2) (v3 := f + (l - f) / 2 + (l - f) / 8) (by omega) (by omega) (by omega)
    obtain ⟨a3, e3, r3⟩ := ssMedian3_ok h (v1 := l - 1 - 2 * ((l - f) / 8)) (v2 := l - 1 - (l - f) / 8) (v3 := l - 1) (by omega) (by omega) (by omega)
    rw [e1, DSS.bind_ok, e2, DSS.bind_ok, e3, DSS.bind_ok]
    exact ssMedian3_ok h r1 r2 r3

/-! ### `ss_partition` -/

/-- in the middle of `ss_partition` -/
structure PartInv (T : List UInt8) (d f l : Nat) (B0 B : List Int) (o0 o : Nat → Nat) (a b : Nat) : Prop where
  len : B.length = B0.length
  fa : f ≤ a
  al : a ≤ l
  done : ∀ p, f ≤ p → p < a → B[p]? = some (inv (o p)) ∧ Ends T d (o p)
  rest : ∀ p, a ≤ p → p < l → B[p]? = some (o p : Int)
  no : ∀ p, b ≤ p → p < l → ¬ Ends T d (o p)
  out : ∀ p, p < f ∨ l ≤ p → B[p]? = B0[p]?
  perm : ∃ σ : Equiv.Perm Nat, (∀ p, p < f ∨ l ≤ p → σ p = p) ∧ ∀ p, o p = o0 (σ p)

theorem PartInv.good {a b : Nat} (I : PartInv T d f l B0 B o0 o a b) (E : Env T d f l B0 o0) {p : Nat} (h1 : f ≤ p) (h2 : p < l) : Good T d (o p) := by
  obtain ⟨σ, h3, h4⟩ := I.perm
  rw [h4]
  have := perm_range h3 h1 h2
  exact E.good _ this.1 this.2

theorem PartInv.pos {a b : Nat} (I : PartInv T d f l B0 B o0 o a b) (E : Env T d f l B0 o0) : HasPos T B := fun x hx => by
  have h2m := (divsufsort_bstars T).2
  have := E.lm
  rw [I.out _ (Or.inr (by omega)), E.pos x hx]

theorem PartInv.cells {a b : Nat} (I : PartInv T d f l B0 B o0 o a b) (hcell : ∀ v : Int, -T.length ≤ v → v < T.length → cell v = v) (E : Env T d f l B0 o0) {p : Nat}
    (h1 : f ≤ p) (h2 : p < l) : cell (o p : Int) = o p ∧ cell (inv (o p)) = inv (o p) := by
  have h2m := (divsufsort_bstars T).2
  have := (I.good E h1 h2).1
  exact ⟨hcell _ (by omega) (by omega), hcell _ (by unfold inv; omega) (by unfold inv; omega)⟩

theorem ssPartUp_spec (hcell : ∀ v : Int, -T.length ≤ v → v < T.length → cell v = v) (E : Env T d f l B0 o0) {b : Nat} : ∀ (r a : Nat) (B : List Int),
    a + r = b → b ≤ l → PartInv T d f l B0 B o0 o a b →
    ∃ a' B', ssPartUp cell ((T.length : Int) - (bstars T).length) d r a B = .ok (a', B') ∧ a ≤ a' ∧ a' ≤ b ∧ PartInv T d f l B0 B' o0 o a' b ∧ (a' < b → ¬ Ends T d (o a'))
  | 0, a, B, h1, h2, I => ⟨a, B, rfl, by omega, by omega, I, fun h => by omega⟩
  | r + 1, a, B, h1, h2, I => by
    have h2m := (divsufsort_bstars T).2
    have hfa := I.fa
    have hlm := E.lm
    have hlen := E.len
    have hB := I.len
    unfold ssPartUp
    rw [ssEnded_ok (I.pos E) (I.rest a (Nat.le_refl _) (by omega)) (I.good E hfa (by omega)), DSS.bind_ok]
    by_cases h : Ends T d (o a)
    · rw [if_pos (decide_eq_true h), sget_ok (I.rest a (Nat.le_refl _) (by omega)), DSS.bind_ok, sset_ok (I.cells hcell E hfa (by omega)).2 (by omega), DSS.bind_ok]
      have I' : PartInv T d f l B0 (B.set a (inv (o a))) o0 o (a + 1) b := by
        refine ⟨by rw [List.length_set, hB], by omega, by omega, fun p h3 h4 => ?_, fun p h3 h4 => ?_, I.no, fun p h3 => ?_, I.perm⟩
        · by_cases h5 : p = a
          · subst h5
            exact ⟨List.getElem?_set_self (by omega), h⟩
          · rw [List.getElem?_set_ne (Ne.symm h5)]
            exact I.done p h3 (by omega)
        · rw [List.getElem?_set_ne (by omega)]
          exact I.rest p (by omega) h4
        · rw [List.getElem?_set_ne (by omega)]
          exact I.out p h3
      obtain ⟨a', B', g1, g2, g3⟩ := ssPartUp_spec hcell E r (a + 1) _ (by omega) h2 I'
      exact ⟨a', B', g1, by omega, g3⟩
    · rw [if_neg (by simpa using h)]
      exact ⟨a, B, rfl, by omega, by omega, I, fun _ => h⟩

theorem ssPartDown_spec (E : Env T d f l B0 o0) {a b : Nat} (I : PartInv T d f l B0 B o0 o a b) : ∀ (r c : Nat), c < l → (r ≠ 0 → c = a + r) →
    ∃ c', ssPartDown ((T.length : Int) - (bstars T).length) d B r c = .ok c' ∧ c - r ≤ c' ∧ c' ≤ c ∧ (∀ p, c' < p → p ≤ c → ¬ Ends T d (o p)) ∧ (a < c' → r ≠ 0 → Ends T d (o c'))
  | 0, c, h1, h2 => ⟨c, rfl, by omega, by omega, fun p h3 h4 => by omega, fun _ h => absurd rfl h⟩
  | r + 1, c, h1, h2 => by
    have hc := h2 (by omega)
    have hfa := I.fa
    unfold ssPartDown
    rw [ssEnded_ok (I.pos E) (I.rest c (by omega) h1) (I.good E (by omega) h1), DSS.bind_ok]
    by_cases h : Ends T d (o c)
    · rw [if_pos (decide_eq_true h)]
      exact ⟨c, rfl, by omega, by omega, fun p h3 h4 => by omega, fun _ _ => h⟩
    · rw [if_neg (by simpa using h)]
      obtain ⟨c', g1, g2, g3, g4, g5⟩ := ssPartDown_spec E I r (c - 1) (by omega) (fun _ => by omega)
      refine ⟨c', g1, by omega, by omega, fun p h3 h4 => ?_, fun h3 _ => g5 h3 (by omega)⟩
      by_cases h5 : p = c
      · rw [h5]; exact h
      · exact g4 p h3 (by omega)

theorem ssPartLoop_spec (hcell : ∀ v : Int, -T.length ≤ v → v < T.length → cell v = v) (E : Env T d f l B0 o0) : ∀ (fuel a b : Nat) (B : List Int) (o : Nat → Nat),
    b < fuel + a → f < l → a ≤ b → b ≤ l → 0 < b → PartInv T d f l B0 B o0 o a b →
    ∃ a' B' o', ssPartLoop cell ((T.length : Int) - (bstars T).length) d fuel a b B = .ok (a', B') ∧ PartInv T d f l B0 B' o0 o' a' a'
  | 0, a, b, B, o, hf, _, hab, _, _, _ => by omega
  | fuel + 1, a, b, B, o, hf, hfl, hab, hbl, hb0, I => by
    have h2m := (divsufsort_bstars T).2
    have hlm := E.lm
    have hlen := E.len
    unfold ssPartLoop
    obtain ⟨a1, B1, g1, g2, g3, I1, g5⟩ := ssPartUp_spec hcell E (b - a) a B (by omega) hbl I
    obtain ⟨c, i1, i2, i3, i4, i5⟩ := ssPartDown_spec E I1 (b - 1 - a1) (b - 1) (by omega) (fun h => by omega)
    have hB1 := I1.len
    have hfa := I1.fa
    rw [g1, DSS.bind_ok]
    dsimp only
    rw [i1, DSS.bind_ok]
    by_cases hca : c ≤ a1
    · rw [if_pos hca]
      refine ⟨a1, B1, o, rfl, I1.len, I1.fa, I1.al, I1.done, I1.rest, fun p h1 h2 => ?_, I1.out, I1.perm⟩
      by_cases h3 : b ≤ p
      · exact I1.no p h3 h2
      · by_cases h4 : p = a1
        · rw [h4]; exact g5 (by omega)
        · exact i4 p (by omega) (by omega)
    · rw [if_neg hca, sget_ok (I1.rest c (by omega) (by omega)), DSS.bind_ok, sget_ok (I1.rest a1 (Nat.le_refl _) (by omega)), DSS.bind_ok,
        sset_ok (I1.cells hcell E hfa (by omega)).1 (by omega), DSS.bind_ok, sset_ok (I1.cells hcell E (by omega) (by omega)).2 (by rw [List.length_set]; omega), DSS.bind_ok]
      refine ssPartLoop_spec hcell E fuel (a1 + 1) c _ (swp o a1 c) (by omega) hfl (by omega) (by omega) (by omega) ?_
      obtain ⟨σ, s1, s2⟩ := I1.perm
      have hne : ¬ Ends T d (o a1) := g5 (by omega)
      refine ⟨by rw [List.length_set, List.length_set, hB1], by omega, by omega, fun p h1 h2 => ?_, fun p h1 h2 => ?_, fun p h1 h2 => ?_, fun p h1 => ?_, σ * Equiv.swap a1 c, fun p hp => ?_, fun p => ?_⟩
      · by_cases h3 : p = a1
        · subst h3
          rw [List.getElem?_set_self (by rw [List.length_set]; omega), swp_left]
          exact ⟨rfl, i5 (by omega) (by omega)⟩
        · rw [List.getElem?_set_ne (by omega), List.getElem?_set_ne (by omega), swp_ne h3 (by omega)]
          exact I1.done p h1 (by omega)
      · rw [List.getElem?_set_ne (by omega)]
        by_cases h3 : p = c
        · subst h3
          rw [List.getElem?_set_self (by omega), swp_right]
        · rw [List.getElem?_set_ne (by omega), swp_ne (by omega) h3]
          exact I1.rest p (by omega) h2
      · by_cases h3 : p = c
        · rw [h3, swp_right]; exact hne
        · rw [swp_ne (by omega) h3]
          by_cases h4 : b ≤ p
          · exact I1.no p h4 h2
          · exact i4 p (by omega) (by omega)
      · rw [List.getElem?_set_ne (by omega), List.getElem?_set_ne (by omega)]
        exact I1.out p h1
      · rw [Equiv.Perm.mul_apply, Equiv.swap_apply_of_ne_of_ne (by omega) (by omega), s1 p hp]
      · unfold swp
        rw [s2, Equiv.Perm.mul_apply]

/-- Those which end come first, all but the first of them marked. -/
theorem ssPartition_spec (hcell : ∀ v : Int, -T.length ≤ v → v < T.length → cell v = v) (E : Env T d f l B0 o0) (hfl : f < l)
    (h0 : ∀ p, f ≤ p → p < l → B0[p]? = some (o0 p : Int)) :
    ∃ (a : Nat) (B' : List Int) (o' : Nat → Nat), ssPartition cell ((T.length : Int) - (bstars T).length) d f l B0 = .ok (a, B') ∧ f ≤ a ∧ a ≤ l ∧ B'.length = B0.length ∧
      (∀ p, p < f ∨ l ≤ p → B'[p]? = B0[p]?) ∧ (∃ σ : Equiv.Perm Nat, (∀ p, p < f ∨ l ≤ p → σ p = p) ∧ ∀ p, o' p = o0 (σ p)) ∧
      (∀ p, f ≤ p → p < a → Ends T d (o' p) ∧ B'[p]? = some (if p = f then (o' p : Int) else inv (o' p))) ∧
      (∀ p, a ≤ p → p < l → ¬ Ends T d (o' p) ∧ B'[p]? = some (o' p : Int)) := by
  have h2m := (divsufsort_bstars T).2
  have hlm := E.lm
  have hlen := E.len
  obtain ⟨a, B1, o1, g1, I⟩ := ssPartLoop_spec hcell E (l - f + 1) f l B0 o0 (by omega) hfl (by omega) (Nat.le_refl _) (by omega)
    ⟨rfl, Nat.le_refl _, by omega, fun p h1 h2 => by omega, h0, fun p h1 h2 => by omega, fun _ _ => rfl, 1, fun _ _ => rfl, fun _ => rfl⟩
  have hB1 := I.len
  have hal := I.al
  unfold ssPartition
  rw [g1, DSS.bind_ok]
  dsimp only
  by_cases h : f < a
  · rw [if_pos h, sget_ok (I.done f (Nat.le_refl _) h).1, DSS.bind_ok, inv_inv, sset_ok (I.cells hcell E (Nat.le_refl _) hfl).1 (by omega), DSS.bind_ok]
    refine ⟨a, _, o1, rfl, I.fa, I.al, by rw [List.length_set, hB1], fun p hp => ?_, I.perm, fun p h1 h2 => ⟨(I.done p h1 h2).2, ?_⟩, fun p h1 h2 => ⟨I.no p h1 h2, ?_⟩⟩
    · rw [List.getElem?_set_ne (by omega)]; exact I.out p hp
    · by_cases h3 : p = f
      · subst h3
        rw [List.getElem?_set_self (by omega), if_pos rfl]
      · rw [List.getElem?_set_ne (by omega), if_neg h3]
        exact (I.done p h1 h2).1
    · rw [List.getElem?_set_ne (by omega)]
      exact I.rest p h1 h2
  · rw [if_neg h]
    exact ⟨a, B1, o1, rfl, I.fa, I.al, hB1, I.out, I.perm, fun p h1 h2 => by omega, fun p h1 h2 => ⟨I.no p h1 h2, I.rest p h1 h2⟩⟩

/-! ### Sorted parts -/

/-- `[f, l)` of `B` holds the numbers `o`, sorted and marked. -/
def PostI (T : List UInt8) (o : Nat → Nat) (f l : Nat) (B : List Int) : Prop :=
  ∃ js : List Nat, js.Perm ((List.range' f (l - f)).map o) ∧ js.Pairwise (fun x y => ¬ bkey T y < bkey T x) ∧ ∀ k, k < js.length → B[f + k]? = marked T js k

theorem marked_append {js ks : List Nat} (h : ∀ x ∈ js, ∀ y ∈ ks, bkey T x < bkey T y) (k : Nat) :
    marked T (js ++ ks) k = if k < js.length then marked T js k else marked T ks (k - js.length) := by
  by_cases h1 : k < js.length
  · rw [if_pos h1]
    unfold marked
    rw [List.getElem?_append_left (l₁ := js) (i := k) h1, List.getElem?_append_left (l₁ := js) (i := k - 1) (by omega)]
  · rw [if_neg h1]
    unfold marked
    rw [List.getElem?_append_right (l₁ := js) (i := k) (by omega)]
    cases hk : ks[k - js.length]? with
    | none => rfl
    | some y =>
      rw [Option.map_some, Option.map_some]
      by_cases h2 : 0 < k - js.length
      · have e : k - 1 - js.length = k - js.length - 1 := by omega
        rw [List.getElem?_append_right (l₁ := js) (i := k - 1) (by omega), e]
        have : (0 < k) ↔ (0 < k - js.length) := by omega
        simp only [this]
      · rw [if_neg (c := 0 < k - js.length ∧ _) (fun h3 => h2 h3.1), if_neg]
        rintro ⟨h3, h4⟩
        have hx : k - 1 < js.length := by omega
        rw [List.getElem?_append_left hx, List.getElem?_eq_getElem hx, Option.map_some, Option.some.injEq] at h4
        have := h _ (List.getElem_mem hx) y (List.mem_of_getElem? hk)
        rw [h4] at this
        exact lex_irrefl _ this

theorem PostI.glue {m : Nat} (P : PostI T o f m B) (Q : PostI T o m l B) (h1 : f ≤ m) (h2 : m ≤ l) (h : ∀ p q, f ≤ p → p < m → m ≤ q → q < l → bkey T (o p) < bkey T (o q)) :
    PostI T o f l B := by
  obtain ⟨js, p1, p2, p3⟩ := P
  obtain ⟨ks, q1, q2, q3⟩ := Q
  have hlt : ∀ x ∈ js, ∀ y ∈ ks, bkey T x < bkey T y := fun x hx y hy => by
    rw [p1.mem_iff, List.mem_map] at hx
    rw [q1.mem_iff, List.mem_map] at hy
    obtain ⟨p, hp, rfl⟩ := hx
    obtain ⟨q, hq, rfl⟩ := hy
    rw [List.mem_range'_1] at hp hq
    exact h p q hp.1 (by omega) hq.1 (by omega)
  have hl := p1.length_eq
  rw [List.length_map, List.length_range'] at hl
  have e : List.range' f (l - f) = List.range' f (m - f) ++ List.range' m (l - m) := by
    have e1 : l - f = (m - f) + (l - m) := by omega
    have e2 : f + (m - f) = m := by omega
    rw [e1, ← List.range'_append_1, e2]
  refine ⟨js ++ ks, ?_, ?_, fun k hk => ?_⟩
  · rw [e, List.map_append]
    exact p1.append q1
  · rw [List.pairwise_append]
    exact ⟨p2, q2, fun x hx y hy h3 => lex_irrefl _ (lex_trans h3 (hlt x hx y hy))⟩
  · rw [marked_append hlt]
    rw [List.length_append] at hk
    by_cases h3 : k < js.length
    · rw [if_pos h3]; exact p3 k h3
    · rw [if_neg h3, ← q3 _ (by omega)]
      congr 1; omega

theorem PostI.perm {o' : Nat → Nat} (P : PostI T o' f l B) (h : ∃ σ : Equiv.Perm Nat, (∀ p, p < f ∨ l ≤ p → σ p = p) ∧ ∀ p, o' p = o (σ p)) : PostI T o f l B := by
  obtain ⟨js, p1, p2⟩ := P
  obtain ⟨σ, h1, h2⟩ := h
  refine ⟨js, p1.trans ?_, p2⟩
  -- the list of contents is all that matters
  have e : (List.range' f (l - f)).map o' = ((List.range' f (l - f)).map σ).map o := by
    rw [List.map_map]
    exact List.map_congr_left (fun p _ => h2 p)
  rw [e]
  refine List.Perm.map _ ?_
  refine (List.perm_ext_iff_of_nodup ((List.nodup_range').map σ.injective) List.nodup_range').mpr (fun x => ?_)
  rw [List.mem_map, List.mem_range'_1]
  constructor
  · rintro ⟨p, hp, rfl⟩
    rw [List.mem_range'_1] at hp
    have := perm_range h1 (p := p) hp.1 (by omega)
    omega
  · intro hx
    refine ⟨σ.symm x, ?_, σ.apply_symm_apply x⟩
    rw [List.mem_range'_1]
    have hs : ∀ p, p < f ∨ l ≤ p → σ.symm p = p := fun p hp => by
      rw [Equiv.symm_apply_eq, h1 p hp]
    have := perm_range hs (p := x) hx.1 (by omega)
    omega

theorem PostI.congr {o' : Nat → Nat} {B' : List Int} (P : PostI T o f l B) (h : ∀ p, f ≤ p → p < l → o' p = o p ∧ B'[p]? = B[p]?) : PostI T o' f l B' := by
  obtain ⟨js, p1, p2, p3⟩ := P
  have hl := p1.length_eq
  rw [List.length_map, List.length_range'] at hl
  refine ⟨js, ?_, p2, fun k hk => ?_⟩
  · have : (List.range' f (l - f)).map o' = (List.range' f (l - f)).map o := List.map_congr_left (fun p hp => by
      rw [List.mem_range'_1] at hp
      exact (h p hp.1 (by omega)).1)
    rw [this]; exact p1
  · rw [(h (f + k) (by omega) (by omega)).2, p3 k hk]

theorem map_get {k : Nat} (hk : k < l - f) : ((List.range' f (l - f)).map o)[k]? = some (o (f + k)) := by
  rw [List.getElem?_map, List.getElem?_eq_getElem (by rwa [List.length_range']), List.getElem_range']
  simp

theorem PostI.strict (h0 : ∀ p, f ≤ p → p < l → B[p]? = some (o p : Int)) (h : ∀ p q, f ≤ p → p < q → q < l → bkey T (o p) < bkey T (o q)) : PostI T o f l B := by
  refine ⟨_, List.Perm.refl _, ?_, fun k hk => ?_⟩
  · rw [List.pairwise_iff_getElem]
    intro i j hi hj hij h3
    rw [List.length_map, List.length_range'] at hi hj
    rw [List.getElem_map, List.getElem_map, List.getElem_range', List.getElem_range'] at h3
    exact lex_irrefl _ (lex_trans h3 (h _ _ (by omega) (by omega) (by omega)))
  · rw [List.length_map, List.length_range'] at hk
    unfold marked
    rw [map_get hk, Option.map_some, h0 _ (by omega) (by omega), if_neg]
    rintro ⟨h1, h2⟩
    rw [map_get (by omega), Option.map_some, Option.some.injEq] at h2
    have := h (f + (k - 1)) (f + k) (by omega) (by omega) (by omega)
    rw [h2] at this
    exact lex_irrefl _ this

theorem PostI.same (h0 : ∀ p, f ≤ p → p < l → B[p]? = some (if p = f then (o p : Int) else inv (o p))) (h : ∀ p q, f ≤ p → p < l → f ≤ q → q < l → bkey T (o p) = bkey T (o q)) :
    PostI T o f l B := by
  refine ⟨_, List.Perm.refl _, ?_, fun k hk => ?_⟩
  · rw [List.pairwise_iff_getElem]
    intro i j hi hj hij h3
    rw [List.length_map, List.length_range'] at hi hj
    rw [List.getElem_map, List.getElem_map, List.getElem_range', List.getElem_range', h (f + 1 * j) (f + 1 * i) (by omega) (by omega) (by omega) (by omega)] at h3
    exact lex_irrefl _ h3
  · rw [List.length_map, List.length_range'] at hk
    unfold marked
    rw [map_get hk, Option.map_some, h0 _ (by omega) (by omega)]
    by_cases h1 : 0 < k
    · rw [if_neg (by omega), if_pos]
      · unfold inv; rfl
      · refine ⟨h1, ?_⟩
        rw [map_get (by omega), Option.map_some, h (f + (k - 1)) (f + k) (by omega) (by omega) (by omega) (by omega)]
    · rw [if_pos (by omega), if_neg (fun h2 => h1 h2.1)]

end Tdc
