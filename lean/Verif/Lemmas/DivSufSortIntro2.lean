import Verif.Lemmas.DivSufSortIntro1

/-! # Multikey introsort: the scans around a pivot -/

namespace Tdc

open DSS

variable {cell : Int → Int} {T : List UInt8} {d f l : Nat} {B0 B : List Int} {o0 o : Nat → Nat}

theorem ssUpEq_spec (E : Env T d f l B0 o0) (S : Sh f l B0 B o0 o) {v : Nat} : ∀ (r b : Nat), f ≤ b → b + r = l →
    ∃ b' x, ssUpEq T ((T.length : Int) - (bstars T).length) d v B r b = .ok (b', x) ∧ b ≤ b' ∧ b' ≤ l ∧ (∀ p, b ≤ p → p < b' → chr T d (o p) = v) ∧
      (b' < l → x = chr T d (o b') ∧ x ≠ v)
  | 0, b, h1, h2 => ⟨b, 0, rfl, by omega, by omega, fun p h3 h4 => by omega, fun h => by omega⟩
  | r + 1, b, h1, h2 => by
    unfold ssUpEq
    rw [S.char E h1 (by omega), DSS.bind_ok]
    by_cases h : chr T d (o b) = v
    · rw [if_pos h]
      obtain ⟨b', x, g1, g2, g3, g4, g5⟩ := ssUpEq_spec E S r (b + 1) (by omega) (by omega)
      refine ⟨b', x, g1, by omega, g3, fun p h3 h4 => ?_, g5⟩
      by_cases h5 : p = b
      · rw [h5, h]
      · exact g4 p (by omega) h4
    · rw [if_neg h]
      exact ⟨b, _, rfl, by omega, by omega, fun p h3 h4 => by omega, fun _ => ⟨rfl, h⟩⟩

theorem ssDownEq_spec (E : Env T d f l B0 o0) (S : Sh f l B0 B o0 o) {v b : Nat} (hb : f ≤ b) : ∀ (r c : Nat), c < l → (r ≠ 0 → c = b + r) →
    ∃ c' x, ssDownEq T ((T.length : Int) - (bstars T).length) d v B r c = .ok (c', x) ∧ c - r ≤ c' ∧ c' ≤ c ∧ (∀ p, c' < p → p ≤ c → chr T d (o p) = v) ∧
      (b < c' → r ≠ 0 → x = chr T d (o c') ∧ x ≠ v)
  | 0, c, h1, h2 => ⟨c, 0, rfl, by omega, by omega, fun p h3 h4 => by omega, fun _ h => absurd rfl h⟩
  | r + 1, c, h1, h2 => by
    have hc := h2 (by omega)
    unfold ssDownEq
    rw [S.char E (by omega) h1, DSS.bind_ok]
    by_cases h : chr T d (o c) = v
    · rw [if_pos h]
      obtain ⟨c', x, g1, g2, g3, g4, g5⟩ := ssDownEq_spec E S hb r (c - 1) (by omega) (fun _ => by omega)
      refine ⟨c', x, g1, by omega, by omega, fun p h3 h4 => ?_, fun h3 _ => g5 h3 (by omega)⟩
      by_cases h5 : p = c
      · rw [h5, h]
      · exact g4 p h3 (by omega)
    · rw [if_neg h]
      exact ⟨c, _, rfl, by omega, by omega, fun p h3 h4 => by omega, fun _ _ => ⟨rfl, h⟩⟩

/-- left of `b`: first the numbers with the character `v`, from `a` on smaller ones -/
def ZL (T : List UInt8) (d f v a b : Nat) (o : Nat → Nat) : Prop := (∀ p, f ≤ p → p < a → chr T d (o p) = v) ∧ ∀ p, a ≤ p → p < b → chr T d (o p) < v

/-- right of `c`: larger ones up to `e`, then those with the character `v` -/
def ZR (T : List UInt8) (d l v c e : Nat) (o : Nat → Nat) : Prop := (∀ p, e < p → p < l → chr T d (o p) = v) ∧ ∀ p, c < p → p ≤ e → v < chr T d (o p)

theorem ssUpScan_spec (hcell : ∀ v : Int, -T.length ≤ v → v < T.length → cell v = v) (E : Env T d f l B0 o0) {v : Nat} : ∀ (r a b : Nat) (B : List Int) (o : Nat → Nat),
    Sh f l B0 B o0 o → f ≤ a → a ≤ b → b + r ≤ l → ZL T d f v a b o →
    ∃ a' b' B' o', ssUpScan cell T ((T.length : Int) - (bstars T).length) d v r a b B = .ok (a', b', B') ∧ Sh f l B0 B' o0 o' ∧ a ≤ a' ∧ a' ≤ b' ∧ b ≤ b' ∧ b' ≤ b + r ∧
      (∀ p, b' ≤ p → o' p = o p) ∧ ZL T d f v a' b' o' ∧ (b' < b + r → v < chr T d (o' b'))
  | 0, a, b, B, o, S, h1, h2, h3, hz => ⟨a, b, B, o, rfl, S, by omega, by omega, by omega, by omega, fun _ _ => rfl, hz, fun h => by omega⟩
  | r + 1, a, b, B, o, S, h1, h2, h3, hz => by
    unfold ssUpScan
    rw [S.char E (by omega) (by omega), DSS.bind_ok]
    by_cases h4 : chr T d (o b) ≤ v
    · rw [if_pos h4]
      by_cases h5 : chr T d (o b) = v
      · rw [if_pos h5]
        obtain ⟨B1, e1, S1⟩ := ssSwap_ok hcell E S (p := b) (q := a) (by omega) (by omega) h1 (by omega)
        have hz1 : ZL T d f v (a + 1) (b + 1) (swp o b a) := by
          refine ⟨fun p h6 h7 => ?_, fun p h6 h7 => ?_⟩
          · by_cases h8 : p = a
            · rw [h8, swp_right, h5]
            · rw [swp_ne (by omega) h8]; exact hz.1 p h6 (by omega)
          · by_cases h8 : p = b
            · rw [h8, swp_left]
              exact hz.2 a (Nat.le_refl _) (by omega)
            · rw [swp_ne h8 (by omega)]; exact hz.2 p (by omega) (by omega)
        obtain ⟨a', b', B', o', g1, g2, g3, g4, g5, g6, g7, g8, g9⟩ := ssUpScan_spec hcell E r (a + 1) (b + 1) B1 _ S1 (by omega) (by omega) (by omega) hz1
        rw [e1, DSS.bind_ok]
        refine ⟨a', b', B', o', g1, g2, by omega, g4, by omega, by omega, fun p hp => ?_, g8, fun h => g9 (by omega)⟩
        rw [g7 p hp, swp_ne (by omega) (by omega)]
      · rw [if_neg h5]
        have hz1 : ZL T d f v a (b + 1) o := ⟨hz.1, fun p h6 h7 => by
          by_cases h8 : p = b
          · rw [h8]; omega
          · exact hz.2 p h6 (by omega)⟩
        obtain ⟨a', b', B', o', g1, g2, g3, g4, g5, g6, g7, g8, g9⟩ := ssUpScan_spec hcell E r a (b + 1) B o S h1 (by omega) (by omega) hz1
        exact ⟨a', b', B', o', g1, g2, g3, g4, by omega, by omega, g7, g8, fun h => g9 (by omega)⟩
    · rw [if_neg h4]
      exact ⟨a, b, B, o, rfl, S, by omega, by omega, by omega, by omega, fun _ _ => rfl, hz, fun _ => by omega⟩

theorem ssDownScan_spec (hcell : ∀ v : Int, -T.length ≤ v → v < T.length → cell v = v) (E : Env T d f l B0 o0) {v : Nat} : ∀ (r c e : Nat) (B : List Int) (o : Nat → Nat),
    Sh f l B0 B o0 o → f + r ≤ c → c ≤ e → e < l → ZR T d l v c e o →
    ∃ c' e' B' o', ssDownScan cell T ((T.length : Int) - (bstars T).length) d v r c e B = .ok (c', e', B') ∧ Sh f l B0 B' o0 o' ∧ e' ≤ e ∧ c' ≤ e' ∧ c' ≤ c ∧ c ≤ c' + r ∧
      (∀ p, p ≤ c' → o' p = o p) ∧ ZR T d l v c' e' o' ∧ (c < c' + r → chr T d (o' c') < v)
  | 0, c, e, B, o, S, h1, h2, h3, hz => ⟨c, e, B, o, rfl, S, by omega, by omega, by omega, by omega, fun _ _ => rfl, hz, fun h => by omega⟩
  | r + 1, c, e, B, o, S, h1, h2, h3, hz => by
    unfold ssDownScan
    rw [S.char E (by omega) (by omega), DSS.bind_ok]
    by_cases h4 : v ≤ chr T d (o c)
    · rw [if_pos h4]
      by_cases h5 : chr T d (o c) = v
      · rw [if_pos h5]
        obtain ⟨B1, e1, S1⟩ := ssSwap_ok hcell E S (p := c) (q := e) (by omega) (by omega) (by omega) h3
        have hz1 : ZR T d l v (c - 1) (e - 1) (swp o c e) := by
          refine ⟨fun p h6 h7 => ?_, fun p h6 h7 => ?_⟩
          · by_cases h8 : p = e
            · rw [h8, swp_right, h5]
            · rw [swp_ne (by omega) h8]; exact hz.1 p (by omega) h7
          · by_cases h8 : p = c
            · rw [h8, swp_left]
              exact hz.2 e (by omega) (Nat.le_refl _)
            · rw [swp_ne h8 (by omega)]; exact hz.2 p (by omega) (by omega)
        obtain ⟨c', e', B', o', g1, g2, g3, g4, g5, g6, g7, g8, g9⟩ := ssDownScan_spec hcell E r (c - 1) (e - 1) B1 _ S1 (by omega) (by omega) (by omega) hz1
        rw [e1, DSS.bind_ok]
        refine ⟨c', e', B', o', g1, g2, by omega, g4, by omega, by omega, fun p hp => ?_, g8, fun h => g9 (by omega)⟩
        rw [g7 p hp, swp_ne (by omega) (by omega)]
      · rw [if_neg h5]
        have hz1 : ZR T d l v (c - 1) e o := ⟨hz.1, fun p h6 h7 => by
          by_cases h8 : p = c
          · rw [h8]; omega
          · exact hz.2 p (by omega) h7⟩
        obtain ⟨c', e', B', o', g1, g2, g3, g4, g5, g6, g7, g8, g9⟩ := ssDownScan_spec hcell E r (c - 1) e B o S (by omega) (by omega) (by omega) hz1
        exact ⟨c', e', B', o', g1, g2, g3, g4, by omega, by omega, g7, g8, fun h => g9 (by omega)⟩
    · rw [if_neg h4]
      exact ⟨c, e, B, o, rfl, S, by omega, by omega, by omega, by omega, fun _ _ => rfl, hz, fun _ => by omega⟩

theorem ssMainScan_spec (hcell : ∀ v : Int, -T.length ≤ v → v < T.length → cell v = v) (E : Env T d f l B0 o0) {v : Nat} : ∀ (fuel a b c e : Nat) (B : List Int) (o : Nat → Nat),
    c + 1 < fuel + b → Sh f l B0 B o0 o → f < a → a ≤ b → b ≤ c + 1 → c ≤ e → e < l → ZL T d f v a b o → ZR T d l v c e o →
    (b < c → v < chr T d (o b) ∧ chr T d (o c) < v) → (b = c → v < chr T d (o b)) →
    ∃ a' b' c' e' B' o', ssMainScan cell T ((T.length : Int) - (bstars T).length) d v fuel a b c e B = .ok (a', b', c', e', B') ∧ Sh f l B0 B' o0 o' ∧
      f < a' ∧ a' ≤ b' ∧ b' ≤ e' + 1 ∧ e' < l ∧ ZL T d f v a' b' o' ∧ (∀ p, e' < p → p < l → chr T d (o' p) = v) ∧ (∀ p, b' ≤ p → p ≤ e' → v < chr T d (o' p))
  | 0, a, b, c, e, B, o, hf, S, h1, h2, h3, h4, h5, z1, z2, h6, h7 => by
    omega
  | fuel + 1, a, b, c, e, B, o, hf, S, h1, h2, h3, h4, h5, z1, z2, h6, h7 => by
    unfold ssMainScan
    by_cases hbc : b < c
    · rw [if_pos hbc]
      obtain ⟨k1, k2⟩ := h6 hbc
      obtain ⟨B1, e1, S1⟩ := ssSwap_ok hcell E S (p := b) (q := c) (by omega) (by omega) (by omega) (by omega)
      have y1 : ZL T d f v a (b + 1) (swp o b c) := by
        refine ⟨fun p h6 h7 => ?_, fun p h6 h7 => ?_⟩
        · rw [swp_ne (by omega) (by omega)]; exact z1.1 p h6 h7
        · by_cases h8 : p = b
          · rw [h8, swp_left]; exact k2
          · rw [swp_ne h8 (by omega)]; exact z1.2 p h6 (by omega)
      obtain ⟨a2, b2, B2, o2, g1, g2, g3, g4, g5, g6, g7, g8, g9⟩ := ssUpScan_spec hcell E (v := v) (c - (b + 1)) a (b + 1) B1 _ S1 (by omega) (by omega) (by omega) y1
      have y2 : ZR T d l v (c - 1) e o2 := by
        refine ⟨fun p h6 h7 => ?_, fun p h6 h7 => ?_⟩
        · rw [g7 p (by omega), swp_ne (by omega) (by omega)]; exact z2.1 p h6 h7
        · rw [g7 p (by omega)]
          by_cases h8 : p = c
          · rw [h8, swp_right]; exact k1
          · rw [swp_ne (by omega) h8]; exact z2.2 p (by omega) h7
      obtain ⟨c3, e3, B3, o3, i1, i2, i3, i4, i5, i6, i7, i8, i9⟩ := ssDownScan_spec hcell E (v := v) (c - 1 - b2) (c - 1) e B2 o2 g2 (by omega) (by omega) h5 y2
      rw [e1, DSS.bind_ok, g1, DSS.bind_ok]
      dsimp only
      rw [i1, DSS.bind_ok]
      dsimp only
      refine ssMainScan_spec hcell E fuel a2 b2 c3 e3 B3 o3 (by omega) i2 (by omega) g4 (by omega) i4 (by omega) ?_ i8 (fun h => ?_) (fun h => ?_)
      · exact ⟨fun p h6 h7 => by rw [i7 p (by omega)]; exact g8.1 p h6 h7, fun p h6 h7 => by rw [i7 p (by omega)]; exact g8.2 p h6 h7⟩
      · exact ⟨by rw [i7 b2 (by omega)]; exact g9 (by omega), i9 (by omega)⟩
      · rw [i7 b2 (by omega)]; exact g9 (by omega)
    · rw [if_neg hbc]
      refine ⟨a, b, c, e, B, o, rfl, S, h1, h2, by omega, h5, z1, z2.1, fun p h8 h9 => ?_⟩
      by_cases h10 : p = c
      · have : b = c := by omega
        rw [h10, ← this]; exact h7 this
      · exact z2.2 p (by omega) h9

/-- From the pivot in front on: those with its character first and last, the smaller and the larger ones between them. -/
theorem ssScans_spec (hcell : ∀ v : Int, -T.length ≤ v → v < T.length → cell v = v) (E : Env T d f l B0 o0) (S : Sh f l B0 B o0 o) {v : Nat} (hfl : f < l)
    (hv : chr T d (o f) = v) :
    ∃ a b e B' o', ssScans cell T ((T.length : Int) - (bstars T).length) d v f l B = .ok (a, b, e, B') ∧ Sh f l B0 B' o0 o' ∧ f < a ∧ a ≤ b ∧ b ≤ e + 1 ∧ e < l ∧
      ZL T d f v a b o' ∧ (∀ p, e < p → p < l → chr T d (o' p) = v) ∧ (∀ p, b ≤ p → p ≤ e → v < chr T d (o' p)) := by
  unfold ssScans
  obtain ⟨b1, x1, g1, g2, g3, g4, g5⟩ := ssUpEq_spec E S (v := v) (l - (f + 1)) (f + 1) (by omega) (by omega)
  rw [g1, DSS.bind_ok]
  dsimp only
  have hz0 : ZL T d f v b1 b1 o := ⟨fun p h1 h2 => by
    by_cases h3 : p = f
    · rw [h3, hv]
    · exact g4 p (by omega) h2, fun p h1 h2 => by omega⟩
  -- the scan from below
  obtain ⟨a2, b2, B2, o2, i1, i2, i3, i4, i5, i6, i7⟩ : ∃ a2 b2 B2 o2,
      (if b1 < l ∧ x1 < v then ssUpScan cell T ((T.length : Int) - (bstars T).length) d v (l - (b1 + 1)) b1 (b1 + 1) B else .ok (b1, b1, B)) = .ok (a2, b2, B2) ∧
      Sh f l B0 B2 o0 o2 ∧ f < a2 ∧ a2 ≤ b2 ∧ b2 ≤ l ∧ ZL T d f v a2 b2 o2 ∧ (b2 < l → v < chr T d (o2 b2)) := by
    by_cases h : b1 < l ∧ x1 < v
    · rw [if_pos h]
      obtain ⟨k1, k2⟩ := g5 h.1
      obtain ⟨a', b', B', o', j1, j2, j3, j4, j5, j6, j7, j8, j9⟩ := ssUpScan_spec hcell E (v := v) (l - (b1 + 1)) b1 (b1 + 1) B o S (by omega) (by omega) (by omega)
        ⟨hz0.1, fun p h1 h2 => by have : p = b1 := by omega
                                  subst this; omega⟩
      exact ⟨a', b', B', o', j1, j2, by omega, j4, by omega, j8, fun h => j9 (by omega)⟩
    · rw [if_neg h]
      refine ⟨b1, b1, B, o, rfl, S, by omega, by omega, g3, hz0, fun h1 => ?_⟩
      obtain ⟨k1, k2⟩ := g5 h1
      omega
  rw [i1, DSS.bind_ok]
  dsimp only
  obtain ⟨c3, x3, k1, k2, k3, k4, k5⟩ := ssDownEq_spec E i2 (v := v) (b := b2) (by omega) (l - 1 - b2) (l - 1) (by omega) (fun h => by omega)
  rw [k1, DSS.bind_ok]
  dsimp only
  have hz3 : ZR T d l v c3 c3 o2 := ⟨fun p h1 h2 => k4 p h1 (by omega), fun p h1 h2 => by omega⟩
  -- the scan from above
  obtain ⟨c4, e4, B4, o4, j1, j2, j3, j4, j5, j6, j7, j8, j9, j10⟩ : ∃ c4 e4 B4 o4,
      (if b2 < c3 ∧ v < x3 then ssDownScan cell T ((T.length : Int) - (bstars T).length) d v (c3 - 1 - b2) (c3 - 1) c3 B2 else .ok (c3, c3, B2)) = .ok (c4, e4, B4) ∧
      Sh f l B0 B4 o0 o4 ∧ b2 ≤ c4 + 1 ∧ c4 ≤ e4 ∧ e4 < l ∧ (∀ p, p < b2 → o4 p = o2 p) ∧ ZR T d l v c4 e4 o4 ∧ (b2 < l → b2 ≤ c4) ∧ (b2 < l → o4 b2 = o2 b2) ∧
      (b2 < c4 → chr T d (o4 c4) < v) := by
    by_cases h : b2 < c3 ∧ v < x3
    · rw [if_pos h]
      obtain ⟨m1, m2⟩ := k5 h.1 (by omega)
      obtain ⟨c', e', B', o', n1, n2, n3, n4, n5, n6, n7, n8, n9⟩ := ssDownScan_spec hcell E (v := v) (c3 - 1 - b2) (c3 - 1) c3 B2 o2 i2 (by omega) (by omega) (by omega)
        ⟨hz3.1, fun p h1 h2 => by have : p = c3 := by omega
                                  subst this; omega⟩
      exact ⟨c', e', B', o', n1, n2, by omega, n4, by omega, fun p hp => n7 p (by omega), n8, fun _ => by omega, fun _ => n7 _ (by omega), fun h => n9 (by omega)⟩
    · rw [if_neg h]
      refine ⟨c3, c3, B2, o2, rfl, i2, by omega, by omega, by omega, fun _ _ => rfl, hz3, fun _ => by omega, fun _ => rfl, fun h1 => ?_⟩
      obtain ⟨m1, m2⟩ := k5 h1 (by omega)
      omega
  rw [j1, DSS.bind_ok]
  dsimp only
  have hz4 : ZL T d f v a2 b2 o4 := ⟨fun p h1 h2 => by rw [j6 p (by omega)]; exact i6.1 p h1 h2, fun p h1 h2 => by rw [j6 p h2]; exact i6.2 p h1 h2⟩
  obtain ⟨a5, b5, c5, e5, B5, o5, q1, q2⟩ := ssMainScan_spec hcell E (v := v) (l - f) a2 b2 c4 e4 B4 o4 (by omega) j2 i3 i4 j3 j4 j5 hz4 j7
    (fun h => ⟨by rw [j9 (by omega)]; exact i7 (by omega), j10 h⟩) (fun h => by rw [j9 (by omega)]; exact i7 (by omega))
  rw [q1, DSS.bind_ok]
  exact ⟨a5, b5, e5, B5, o5, rfl, q2⟩

theorem ssSwapRange_spec (hcell : ∀ v : Int, -T.length ≤ v → v < T.length → cell v = v) (E : Env T d f l B0 o0) : ∀ (s e g : Nat) (B : List Int) (o : Nat → Nat),
    Sh f l B0 B o0 o → f ≤ e → e + s ≤ g → g + s ≤ l → ∃ B' o', ssSwapRange cell s e g B = .ok B' ∧ Sh f l B0 B' o0 o' ∧
      (∀ i, i < s → o' (e + i) = o (g + i) ∧ o' (g + i) = o (e + i)) ∧ (∀ p, p < e ∨ (e + s ≤ p ∧ p < g) ∨ g + s ≤ p → o' p = o p)
  | 0, e, g, B, o, S, h1, h2, h3 => ⟨B, o, rfl, S, fun i hi => by omega, fun p hp => rfl⟩
  | s + 1, e, g, B, o, S, h1, h2, h3 => by
    obtain ⟨B1, e1, S1⟩ := ssSwap_ok hcell E S (p := e) (q := g) (by omega) (by omega) (by omega) (by omega)
    obtain ⟨B2, o2, g1, g2, g3, g4⟩ := ssSwapRange_spec hcell E s (e + 1) (g + 1) B1 _ S1 (by omega) (by omega) (by omega)
    unfold ssSwapRange
    rw [e1, DSS.bind_ok]
    refine ⟨B2, o2, g1, g2, fun i hi => ?_, fun p hp => ?_⟩
    · rcases Nat.eq_zero_or_pos i with h0 | h0
      · subst h0
        rw [Nat.add_zero, Nat.add_zero, g4 e (by omega), g4 g (by omega), swp_left, swp_right]
        exact ⟨rfl, rfl⟩
      · obtain ⟨k1, k2⟩ := g3 (i - 1) (by omega)
        have e1 : e + 1 + (i - 1) = e + i := by omega
        have e2 : g + 1 + (i - 1) = g + i := by omega
        rw [e1, e2] at k1 k2
        rw [k1, k2, swp_ne (by omega) (by omega), swp_ne (by omega) (by omega)]
        exact ⟨rfl, rfl⟩
    · rw [g4 p (by omega), swp_ne (by omega) (by omega)]

end Tdc
