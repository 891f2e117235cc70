import Verif.Lemmas.DivSufSortIntro7

/-! # The heap sort of `ss_mintrosort` -/

namespace Tdc

open DSS

variable {cell : Int → Int} {T : List UInt8} {d f l : Nat} {B0 B : List Int} {o0 o : Nat → Nat}

theorem PermOn.symm (P : PermOn f l o0 o) : PermOn f l o o0 := by
  obtain ⟨σ, h1, h2⟩ := P
  refine ⟨σ⁻¹, fun p hp => ?_, fun p => ?_⟩
  · have := h1 p hp
    rw [Equiv.Perm.inv_eq_iff_eq, this]
  · rw [h2]
    exact congrArg o0 (Equiv.apply_symm_apply σ p).symm

theorem PermOn.swp {p q : Nat} (hp : f ≤ p ∧ p < l) (hq : f ≤ q ∧ q < l) : PermOn f l o (swp o p q) :=
  ⟨Equiv.swap p q, fun x hx => Equiv.swap_apply_of_ne_of_ne (by omega) (by omega), fun _ => rfl⟩

/-- a heap below the places from `r` on -/
def HeapFrom (C : Nat → Nat) (r z : Nat) : Prop := ∀ p j, r ≤ p → j < z → (j = 2 * p + 1 ∨ j = 2 * p + 2) → C j ≤ C p

theorem HeapFrom.top {C : Nat → Nat} {z : Nat} (h : HeapFrom C 0 z) : ∀ k, k < z → C k ≤ C 0 := fun k => by
  induction k using Nat.strongRecOn with
  | _ k ih =>
    intro hk
    rcases Nat.eq_zero_or_pos k with h0 | h0
    · rw [h0]
    · exact Nat.le_trans (h ((k - 1) / 2) k (by omega) hk (by omega)) (ih ((k - 1) / 2) (by omega) (by omega))

/-- what `ss_fixdown` leaves -/
structure FixRes (T : List UInt8) (d f r z : Nat) (B : List Int) (o : Nat → Nat) (B' : List Int) (o' : Nat → Nat) : Prop where
  len : B'.length = B.length
  perm : PermOn f (f + z) o o'
  hold : ∀ k, k < z → B'[f + k]? = some (o' (f + k) : Int)
  out : ∀ p, p < f ∨ f + z ≤ p → B'[p]? = B[p]?
  heap : HeapFrom (fun k => chr T d (o' (f + k))) r z

theorem ssFixLoop_spec (hcell : ∀ v : Int, -T.length ≤ v → v < T.length → cell v = v) {z r v : Nat} (hfl : f + z ≤ (bstars T).length) (hv : Good T d v) : ∀ (fuel i : Nat) (B : List Int) (o : Nat → Nat),
    z < fuel + i → i < z → r ≤ i → B.length = T.length → HasPos T B → (∀ k, k < z → Good T d (o (f + k))) → (∀ k, k < z → k ≠ i → B[f + k]? = some (o (f + k) : Int)) → o (f + i) = v →
    (z % 2 = 1 ∨ B[f + z]? = some (v : Int)) →
    (∀ p j, r ≤ p → p ≠ i → j < z → (j = 2 * p + 1 ∨ j = 2 * p + 2) → chr T d (o (f + j)) ≤ chr T d (o (f + p))) →
    (∀ p j, r ≤ p → (i = 2 * p + 1 ∨ i = 2 * p + 2) → j < z → (j = 2 * i + 1 ∨ j = 2 * i + 2) → chr T d (o (f + j)) ≤ chr T d (o (f + p))) →
    ∃ B' o', ssFixLoop cell T ((T.length : Int) - (bstars T).length) d f z v (chr T d v) fuel i B = .ok B' ∧ FixRes T d f r z B o B' o'
  | 0, i, B, o, hf, hi, _, _, _, _, _, _, _, _, _ => by omega
  | fuel + 1, i, B, o, hf, hi, hri, hl, hB, hg, hold, hov, hz, hh, hgp => by
    have h2m := (divsufsort_bstars T).2
    have hvm := hv.1
    -- the end
    have fin : (∀ j, j < z → (j = 2 * i + 1 ∨ j = 2 * i + 2) → chr T d (o (f + j)) ≤ chr T d v) →
        ∃ B' o', sset cell B ((f + i : Nat) : Int) v = .ok B' ∧ FixRes T d f r z B o B' o' := fun hc => by
      refine ⟨_, o, sset_ok (hcell _ (by omega) (by omega)) (by omega), List.length_set, PermOn.refl _ _ _, fun k hk => ?_, fun p hp => List.getElem?_set_ne (by omega), fun p j h1 h2 h3 => ?_⟩
      · by_cases h : k = i
        · subst h
          rw [List.getElem?_set_self (by omega), hov]
        · rw [List.getElem?_set_ne (by omega), hold k hk h]
      · dsimp only
        by_cases h : p = i
        · subst h
          rw [hov]; exact hc j h2 h3
        · exact hh p j h1 h h2 h3
    unfold ssFixLoop
    by_cases hj : 2 * i + 1 < z
    · rw [if_pos hj, ssChar_ok hB (hold (2 * i + 1) hj (by omega)) (hg (2 * i + 1) hj), DSS.bind_ok]
      -- one more step
      have step : ∀ k, k < z → (k = 2 * i + 1 ∨ k = 2 * i + 2) → (∀ j, j < z → (j = 2 * i + 1 ∨ j = 2 * i + 2) → chr T d (o (f + j)) ≤ chr T d (o (f + k))) → chr T d v < chr T d (o (f + k)) →
          ∃ B' o', (sget B ((f + k : Nat) : Int)).bind (fun w => (sset cell B ((f + i : Nat) : Int) w).bind fun B => ssFixLoop cell T ((T.length : Int) - (bstars T).length) d f z v (chr T d v) fuel k B) = .ok B' ∧
            FixRes T d f r z B o B' o' := fun k hk hki hmax hc => by
        have hki' : k ≠ i := by omega
        have hgk := (hg k hk).1
        rw [sget_ok (hold k hk hki'), DSS.bind_ok, sset_ok (hcell _ (by omega) (by omega)) (by omega), DSS.bind_ok]
        have s1 : swp o (f + i) (f + k) (f + i) = o (f + k) := swp_left _ _
        have s2 : swp o (f + i) (f + k) (f + k) = o (f + i) := swp_right _ _
        have s3 : ∀ q, q ≠ i → q ≠ k → swp o (f + i) (f + k) (f + q) = o (f + q) := fun q h1 h2 => swp_ne (by omega) (by omega)
        have hP : PermOn f (f + z) o (swp o (f + i) (f + k)) := PermOn.swp ⟨by omega, by omega⟩ ⟨by omega, by omega⟩
        obtain ⟨B', o', e1, R⟩ := ssFixLoop_spec (r := r) hcell hfl hv fuel k (B.set (f + i) (o (f + k) : Int)) (swp o (f + i) (f + k)) (by omega) hk (by omega) (by rw [List.length_set, hl])
          (fun x hx => by rw [List.getElem?_set_ne (by omega)]; exact hB x hx)
          (fun q hq => hP.all (Q := Good T d) (fun p h1 h2 => by
            have := hg (p - f) (by omega)
            rwa [show f + (p - f) = p by omega] at this) (by omega) (by omega))
          (fun q hq hqk => by
            by_cases h : q = i
            · subst h
              rw [List.getElem?_set_self (by omega), s1]
            · rw [List.getElem?_set_ne (by omega), s3 q h hqk, hold q hq h])
          (by rw [s2, hov]) (by rw [List.getElem?_set_ne (by omega)]; exact hz)
          (fun p j h1 h2 h3 h4 => by
            by_cases hpi : p = i
            · subst hpi
              rw [s1]
              by_cases hjk : j = k
              · subst hjk
                rw [s2, hov]; omega
              · rw [s3 j (by omega) hjk]
                exact hmax j h3 h4
            · rw [s3 p hpi h2]
              by_cases hji : j = i
              · subst hji
                rw [s1]
                exact hgp p k h1 h4 hk hki
              · rw [s3 j hji (by omega)]
                exact hh p j h1 hpi h3 h4)
          (fun p j h1 h2 h3 h4 => by
            have hpi : p = i := by omega
            subst hpi
            rw [s1, s3 j (by omega) (by omega)]
            exact hh k j (by omega) hki' h3 h4)
        exact ⟨B', o', e1, by rw [R.len, List.length_set], hP.trans R.perm, R.hold, fun p hp => by rw [R.out p hp, List.getElem?_set_ne (by omega)], R.heap⟩
      by_cases hj2 : 2 * i + 2 < z
      · rw [ssChar_ok hB (hold (2 * i + 2) hj2 (by omega)) (hg (2 * i + 2) hj2), DSS.bind_ok]
        dsimp only
        by_cases hde : chr T d (o (f + (2 * i + 1))) < chr T d (o (f + (2 * i + 2)))
        · rw [if_pos hde, if_pos hde]
          have hmax : ∀ j, j < z → (j = 2 * i + 1 ∨ j = 2 * i + 2) → chr T d (o (f + j)) ≤ chr T d (o (f + (2 * i + 2))) := fun j _ h => by
            rcases h with h | h <;> subst h <;> omega
          by_cases hdc : chr T d (o (f + (2 * i + 2))) ≤ chr T d v
          · rw [if_pos hdc]
            exact fin (fun j h1 h2 => Nat.le_trans (hmax j h1 h2) hdc)
          · rw [if_neg hdc]
            exact step (2 * i + 2) hj2 (Or.inr rfl) hmax (by omega)
        · rw [if_neg hde, if_neg hde]
          have hmax : ∀ j, j < z → (j = 2 * i + 1 ∨ j = 2 * i + 2) → chr T d (o (f + j)) ≤ chr T d (o (f + (2 * i + 1))) := fun j _ h => by
            rcases h with h | h <;> subst h <;> omega
          by_cases hdc : chr T d (o (f + (2 * i + 1))) ≤ chr T d v
          · rw [if_pos hdc]
            exact fin (fun j h1 h2 => Nat.le_trans (hmax j h1 h2) hdc)
          · rw [if_neg hdc]
            exact step (2 * i + 1) hj (Or.inl rfl) hmax (by omega)
      · have hzz : z = 2 * i + 2 := by omega
        have hzv : B[f + (2 * i + 2)]? = some (v : Int) := by
          rcases hz with h | h
          · omega
          · rwa [hzz] at h
        rw [ssChar_ok hB hzv hv, DSS.bind_ok]
        dsimp only
        by_cases hde : chr T d (o (f + (2 * i + 1))) < chr T d v
        · rw [if_pos hde, if_pos hde, if_pos (Nat.le_refl _)]
          exact fin (fun j h1 h2 => by
            have : j = 2 * i + 1 := by omega
            subst this; omega)
        · rw [if_neg hde, if_neg hde]
          have hmax : ∀ j, j < z → (j = 2 * i + 1 ∨ j = 2 * i + 2) → chr T d (o (f + j)) ≤ chr T d (o (f + (2 * i + 1))) := fun j h1 h => by
            have : j = 2 * i + 1 := by omega
            subst this; omega
          by_cases hdc : chr T d (o (f + (2 * i + 1))) ≤ chr T d v
          · rw [if_pos hdc]
            exact fin (fun j h1 h2 => Nat.le_trans (hmax j h1 h2) hdc)
          · rw [if_neg hdc]
            exact step (2 * i + 1) hj (Or.inl rfl) hmax (by omega)
    · rw [if_neg hj]
      exact fin (fun j h1 h2 => by omega)

theorem ssFixdown_spec (hcell : ∀ v : Int, -T.length ≤ v → v < T.length → cell v = v) {z i : Nat} (hfl : f + z ≤ (bstars T).length) (hi : i < z) (hl : B.length = T.length) (hB : HasPos T B)
    (hg : ∀ k, k < z → Good T d (o (f + k))) (hold : ∀ k, k < z → B[f + k]? = some (o (f + k) : Int)) (hz : z % 2 = 1 ∨ B[f + z]? = some (o (f + i) : Int))
    (hh : HeapFrom (fun k => chr T d (o (f + k))) (i + 1) z) :
    ∃ B' o', ssFixdown cell T ((T.length : Int) - (bstars T).length) d f i z B = .ok B' ∧ FixRes T d f i z B o B' o' := by
  unfold ssFixdown
  rw [sget_ok (hold i hi), DSS.bind_ok, ssChar_ok hB (hold i hi) (hg i hi), DSS.bind_ok]
  exact ssFixLoop_spec hcell hfl (hg i hi) (z + 1) i B o (by omega) hi (Nat.le_refl _) hl hB hg (fun k hk _ => hold k hk) rfl hz
    (fun p j h1 h2 h3 h4 => hh p j (by omega) h3 h4) (fun p j h1 h2 h3 h4 => by omega)

theorem FixRes.good {r z : Nat} {B' : List Int} {o' : Nat → Nat} (R : FixRes T d f r z B o B' o') (hg : ∀ k, k < z → Good T d (o (f + k))) : ∀ k, k < z → Good T d (o' (f + k)) := fun k hk =>
  R.perm.all (Q := Good T d) (fun p h1 h2 => by
    have := hg (p - f) (by omega)
    rwa [show f + (p - f) = p by omega] at this) (by omega) (by omega)

theorem FixRes.pos {r z : Nat} {B' : List Int} {o' : Nat → Nat} (R : FixRes T d f r z B o B' o') (hfl : f + z ≤ (bstars T).length) (hB : HasPos T B) : HasPos T B' :=
  hasPos_of_out hB hfl (fun p hp => R.out p (Or.inr hp))

theorem ssHeapBuild_spec (hcell : ∀ v : Int, -T.length ≤ v → v < T.length → cell v = v) {z : Nat} (hfl : f + z ≤ (bstars T).length) (hz : z % 2 = 1) : ∀ (n : Nat) (B : List Int) (o : Nat → Nat),
    n ≤ z → B.length = T.length → HasPos T B → (∀ k, k < z → Good T d (o (f + k))) → (∀ k, k < z → B[f + k]? = some (o (f + k) : Int)) →
    HeapFrom (fun k => chr T d (o (f + k))) n z →
    ∃ B' o', ssHeapBuild cell T ((T.length : Int) - (bstars T).length) d f z n B = .ok B' ∧ FixRes T d f 0 z B o B' o'
  | 0, B, o, _, hl, hB, hg, hold, hh => ⟨B, o, rfl, rfl, PermOn.refl _ _ _, hold, fun _ _ => rfl, hh⟩
  | n + 1, B, o, hn, hl, hB, hg, hold, hh => by
    obtain ⟨B1, o1, e1, R⟩ := ssFixdown_spec hcell hfl (i := n) (by omega) hl hB hg hold (Or.inl hz) hh
    obtain ⟨B2, o2, e2, R2⟩ := ssHeapBuild_spec hcell hfl hz n B1 o1 (by omega) (by rw [R.len, hl]) (R.pos hfl hB) (R.good hg) R.hold R.heap
    unfold ssHeapBuild
    rw [e1, DSS.bind_ok]
    exact ⟨B2, o2, e2, by rw [R2.len, R.len], R.perm.trans R2.perm, R2.hold, fun p hp => by rw [R2.out p hp, R.out p hp], R2.heap⟩

theorem ssHeapPop_spec (hcell : ∀ v : Int, -T.length ≤ v → v < T.length → cell v = v) : ∀ (n : Nat) (B : List Int) (o : Nat → Nat),
    f + n + 1 ≤ l → Env T d f l B o → (∀ p, f ≤ p → p < l → B[p]? = some (o p : Int)) → HeapFrom (fun k => chr T d (o (f + k))) 0 (n + 1) →
    (∀ p q, f ≤ p → p < q → f + n + 1 ≤ q → q < l → chr T d (o p) ≤ chr T d (o q)) →
    ∃ B' o', ssHeapPop cell T ((T.length : Int) - (bstars T).length) d f n B = .ok B' ∧ Sh f l B B' o o' ∧ ∀ p q, f ≤ p → p < q → q < l → chr T d (o' p) ≤ chr T d (o' q)
  | 0, B, o, hn, E, hold, hh, hD => ⟨B, o, rfl, Sh.refl hold, fun p q h1 h2 h3 => hD p q h1 h2 (by omega) h3⟩
  | n + 1, B, o, hn, E, hold, hh, hD => by
    have h2m := (divsufsort_bstars T).2
    have hlm := E.lm
    have hl := E.len
    have hgf := (E.good f (Nat.le_refl _) (by omega)).1
    have hgn := (E.good (f + (n + 1)) (by omega) (by omega)).1
    unfold ssHeapPop
    rw [sget_ok (hold f (Nat.le_refl _) (by omega)), DSS.bind_ok, sget_ok (hold (f + (n + 1)) (by omega) (by omega)), DSS.bind_ok, sset_ok (hcell _ (by omega) (by omega)) (by omega), DSS.bind_ok]
    have s1 : swp o f (f + (n + 1)) f = o (f + (n + 1)) := swp_left _ _
    have s2 : swp o f (f + (n + 1)) (f + (n + 1)) = o f := swp_right _ _
    have s3 : ∀ q, q ≠ f → q ≠ f + (n + 1) → swp o f (f + (n + 1)) q = o q := fun q h1 h2 => swp_ne h1 h2
    have hP : PermOn f l o (swp o f (f + (n + 1))) := PermOn.swp ⟨by omega, by omega⟩ ⟨by omega, by omega⟩
    have g1 : ∀ p, f ≤ p → p < l → Good T d (swp o f (f + (n + 1)) p) := fun p h1 h2 => hP.all (Q := Good T d) E.good h1 h2
    obtain ⟨B2, o2, e2, R⟩ := ssFixdown_spec hcell (f := f) (d := d) (z := n + 1) (i := 0) (B := B.set f (o (f + (n + 1)) : Int)) (o := swp o f (f + (n + 1))) (by omega) (by omega) (by rw [List.length_set, hl])
      (fun x hx => by rw [List.getElem?_set_ne (by omega)]; exact E.pos x hx) (fun k hk => g1 _ (by omega) (by omega))
      (fun k hk => by
        by_cases h : k = 0
        · subst h
          show (B.set f (o (f + (n + 1)) : Int))[f]? = some ((swp o f (f + (n + 1)) f : Nat) : Int)
          rw [List.getElem?_set_self (by omega), s1]
        · rw [List.getElem?_set_ne (by omega), s3 _ (by omega) (by omega), hold _ (by omega) (by omega)])
      (Or.inr (by
        show (B.set f (o (f + (n + 1)) : Int))[f + (n + 1)]? = some ((swp o f (f + (n + 1)) f : Nat) : Int)
        rw [List.getElem?_set_ne (by omega), s1, hold _ (by omega) (by omega)]))
      (fun p j h1 h2 h3 => by
        have := hh p j (by omega) (by omega) h3
        dsimp only at this ⊢
        rwa [s3 _ (by omega) (by omega), s3 _ (by omega) (by omega)])
    rw [e2, DSS.bind_ok, sset_ok (hcell _ (by omega) (by omega)) (by rw [R.len, List.length_set]; omega), DSS.bind_ok]
    have eo : ∀ p, f + (n + 1) ≤ p → o2 p = swp o f (f + (n + 1)) p := fun p hp => R.perm.out (Or.inr hp)
    have hP2 : PermOn f l o o2 := hP.trans (R.perm.widen (Nat.le_refl _) (by omega))
    have S2 : Sh f l B (B2.set (f + (n + 1)) (o f : Int)) o o2 := by
      refine ⟨by rw [List.length_set, R.len, List.length_set], fun p h1 h2 => ?_, fun p hp => ?_, hP2⟩
      · by_cases h3 : p = f + (n + 1)
        · subst h3
          rw [List.getElem?_set_self (by rw [R.len, List.length_set]; omega), eo _ (Nat.le_refl _), s2]
        · rw [List.getElem?_set_ne (by omega)]
          by_cases h4 : p < f + (n + 1)
          · have := R.hold (p - f) (by omega)
            rwa [show f + (p - f) = p by omega] at this
          · rw [R.out p (by omega), List.getElem?_set_ne (by omega), eo p (by omega), s3 p (by omega) h3, hold p h1 h2]
      · rw [List.getElem?_set_ne (by omega), R.out p (by omega), List.getElem?_set_ne (by omega)]
    have top : ∀ p, f ≤ p → p < f + (n + 1 + 1) → chr T d (o p) ≤ chr T d (o f) := fun p h1 h2 => by
      have : chr T d (o (f + (p - f))) ≤ chr T d (o f) := hh.top (p - f) (by omega)
      rwa [show f + (p - f) = p by omega] at this
    -- the numbers in front are those that were there, but for the greatest
    have low : ∀ (Q : Nat → Prop), (∀ p, f ≤ p → p < f + (n + 1 + 1) → Q (o p)) → ∀ p, f ≤ p → p < f + (n + 1) → Q (o2 p) := fun Q hQ p h1 h2 => by
      refine R.perm.all (Q := Q) (fun p h1 h2 => ?_) h1 h2
      by_cases h : p = f
      · rw [h, s1]; exact hQ _ (by omega) (by omega)
      · rw [s3 p h (by omega)]; exact hQ p h1 (by omega)
    obtain ⟨B3, o3, e3, S3, srt⟩ := ssHeapPop_spec hcell n (B2.set (f + (n + 1)) (o f : Int)) o2 (by omega) (S2.env E) S2.hold R.heap (fun p q h1 h2 h3 h4 => by
      by_cases h5 : q = f + (n + 1)
      · subst h5
        rw [eo _ (Nat.le_refl _), s2]
        exact low (fun x => chr T d x ≤ chr T d (o f)) top p h1 (by omega)
      · rw [eo q (by omega), s3 q (by omega) h5]
        by_cases h6 : p < f + (n + 1)
        · exact low (fun x => chr T d x ≤ chr T d (o q)) (fun p h7 h8 => hD p q h7 (by omega) (by omega) h4) p h1 h6
        · rw [eo p (by omega)]
          by_cases h7 : p = f + (n + 1)
          · subst h7
            rw [s2]
            exact hD f q (Nat.le_refl _) (by omega) (by omega) h4
          · rw [s3 p (by omega) h7]
            exact hD p q h1 h2 (by omega) h4)
    exact ⟨B3, o3, e3, S2.trans S3, srt⟩

theorem FixRes.sh {r z : Nat} {B' : List Int} {o' : Nat → Nat} (R : FixRes T d f r z B o B' o') (hzl : f + z ≤ l) (hold : ∀ p, f ≤ p → p < l → B[p]? = some (o p : Int)) : Sh f l B B' o o' := by
  refine ⟨R.len, fun p h1 h2 => ?_, fun p hp => R.out p (by omega), R.perm.widen (Nat.le_refl _) hzl⟩
  by_cases h : p < f + z
  · have := R.hold (p - f) (by omega)
    rwa [show f + (p - f) = p by omega] at this
  · rw [R.out p (by omega), R.perm.out (by omega), hold p h1 h2]

/-- `ss_heapsort` sorts the numbers by one character. -/
theorem ssHeapsort_ok (hcell : ∀ v : Int, -T.length ≤ v → v < T.length → cell v = v) : HeapOk T (fun d f l B => ssHeapsort cell T ((T.length : Int) - (bstars T).length) d f l B) := by
  intro d f l B o E h8 hold
  have hlm := E.lm
  unfold ssHeapsort
  dsimp only
  have S0 : Sh f l B B o o := Sh.refl hold
  by_cases he : (l - f) % 2 = 0
  · rw [if_pos he]
    generalize hm : l - f - 1 = m
    have hml : f + m + 1 = l := by omega
    rw [S0.char E (by omega : f ≤ f + m / 2) (by omega), DSS.bind_ok, S0.char E (by omega : f ≤ f + m) (by omega), DSS.bind_ok]
    obtain ⟨B1, o1, e1, S1, hle⟩ : ∃ B1 o1, (if chr T d (o (f + m / 2)) < chr T d (o (f + m)) then ssSwap cell (f + m) (f + m / 2) B else .ok B) = .ok B1 ∧ Sh f l B B1 o o1 ∧
        chr T d (o1 (f + m)) ≤ chr T d (o1 (f + m / 2)) := by
      by_cases hc : chr T d (o (f + m / 2)) < chr T d (o (f + m))
      · rw [if_pos hc]
        obtain ⟨B1, e1, S1⟩ := ssSwap_ok hcell E S0 (p := f + m) (q := f + m / 2) (by omega) (by omega) (by omega) (by omega)
        exact ⟨B1, _, e1, S1, by rw [swp_left, swp_right]; omega⟩
      · rw [if_neg hc]
        exact ⟨B, o, rfl, S0, by omega⟩
    have E1 := S1.env E
    rw [e1, DSS.bind_ok]
    obtain ⟨B2, o2, e2, R2⟩ := ssHeapBuild_spec hcell (f := f) (d := d) (z := m) (by omega) (by omega) (m / 2) B1 o1 (by omega) E1.len E1.pos (fun k hk => E1.good _ (by omega) (by omega))
      (fun k hk => S1.hold _ (by omega) (by omega)) (fun p j h1 h2 h3 => by omega)
    have S2 : Sh f l B B2 o o2 := S1.trans (R2.sh (by omega) S1.hold)
    have top : ∀ p, f ≤ p → p < l → chr T d (o2 p) ≤ chr T d (o2 f) := fun p h1 h2 => by
      have htop : ∀ k, k < m → chr T d (o2 (f + k)) ≤ chr T d (o2 f) := R2.heap.top
      have htop' : ∀ p, f ≤ p → p < f + m → chr T d (o2 p) ≤ chr T d (o2 f) := fun p h1 h2 => by
        have := htop (p - f) (by omega)
        rwa [show f + (p - f) = p by omega] at this
      by_cases h3 : p < f + m
      · exact htop' p h1 h3
      · have h4 : p = f + m := by omega
        subst h4
        rw [R2.perm.out (by omega)]
        exact Nat.le_trans hle (R2.perm.symm.all (Q := fun x => chr T d x ≤ chr T d (o2 f)) htop' (by omega) (by omega))
    obtain ⟨B3, e3, S3⟩ := ssSwap_ok hcell E S2 (p := f) (q := f + m) (by omega) (by omega) (by omega) (by omega)
    have E3 := S3.env E
    rw [e2, DSS.bind_ok, e3, DSS.bind_ok]
    have s1 : swp o2 f (f + m) f = o2 (f + m) := swp_left _ _
    have s2 : swp o2 f (f + m) (f + m) = o2 f := swp_right _ _
    have s3 : ∀ q, q ≠ f → q ≠ f + m → swp o2 f (f + m) q = o2 q := fun q h1 h2 => swp_ne h1 h2
    obtain ⟨B4, o4, e4, R4⟩ := ssFixdown_spec hcell (f := f) (d := d) (z := m) (i := 0) (B := B3) (o := swp o2 f (f + m)) (by omega) (by omega) E3.len E3.pos
      (fun k hk => E3.good _ (by omega) (by omega)) (fun k hk => S3.hold _ (by omega) (by omega)) (Or.inl (by omega))
      (fun p j h1 h2 h3 => by
        have := R2.heap p j (by omega) h2 h3
        dsimp only at this ⊢
        rwa [s3 _ (by omega) (by omega), s3 _ (by omega) (by omega)])
    have S4 : Sh f l B B4 o o4 := S3.trans (R4.sh (by omega) S3.hold)
    rw [e4, DSS.bind_ok]
    obtain ⟨B5, o5, e5, S5, srt⟩ := ssHeapPop_spec hcell (f := f) (l := l) (d := d) (m - 1) B4 o4 (by omega) (S4.env E) S4.hold (by rw [show m - 1 + 1 = m by omega]; exact R4.heap)
      (fun p q h1 h2 h3 h4 => by
        have h5 : q = f + m := by omega
        subst h5
        rw [R4.perm.out (Or.inr (Nat.le_refl _)), s2]
        refine R4.perm.all (Q := fun x => chr T d x ≤ chr T d (o2 f)) (fun p h1 h2 => ?_) h1 h2
        by_cases h6 : p = f
        · rw [h6, s1]; exact top _ (by omega) (by omega)
        · rw [s3 p h6 (by omega)]; exact top p h1 (by omega))
    exact ⟨B5, o5, e5, S4.trans S5, srt⟩
  · rw [if_neg he]
    generalize hm : l - f = m at *
    have hml : f + m = l := by omega
    obtain ⟨B2, o2, e2, R2⟩ := ssHeapBuild_spec hcell (f := f) (d := d) (z := m) (by omega) (by omega) (m / 2) B o (by omega) E.len E.pos (fun k hk => E.good _ (by omega) (by omega))
      (fun k hk => hold _ (by omega) (by omega)) (fun p j h1 h2 h3 => by omega)
    have S2 : Sh f l B B2 o o2 := R2.sh (by omega) hold
    rw [e2, DSS.bind_ok]
    obtain ⟨B5, o5, e5, S5, srt⟩ := ssHeapPop_spec hcell (f := f) (l := l) (d := d) (m - 1) B2 o2 (by omega) (S2.env E) S2.hold (by rw [show m - 1 + 1 = m by omega]; exact R2.heap)
      (fun p q h1 h2 h3 h4 => by omega)
    exact ⟨B5, o5, e5, S2.trans S5, srt⟩

end Tdc
