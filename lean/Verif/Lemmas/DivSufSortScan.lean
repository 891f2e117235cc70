import Verif.Model.DivSufSort
import Verif.Lemmas.SufOrd

/-! # Induced sorting: the scans of `construct_SA` -/

namespace Tdc.DSS

theorem sget_ok {SA : List Int} {i : Nat} {v : Int} (h : SA[i]? = some v) : sget SA i = .ok v := by
  unfold sget
  rw [if_pos (Int.natCast_nonneg i), Int.toNat_natCast, h]

theorem sset_ok {cell : Int → Int} {SA : List Int} {i : Nat} {v : Int} (hc : cell v = v) (h : i < SA.length) : sset cell SA i v = .ok (SA.set i v) := by
  unfold sset
  rw [if_pos ⟨Int.natCast_nonneg i, by rw [Int.toNat_natCast]; exact h⟩, Int.toNat_natCast, hc]

theorem inv_inv (s : Int) : inv (inv s) = s := by unfold inv; omega

theorem bind_ok {α β : Type} (a : α) (f : α → Res β) : (Except.ok a : Res α).bind f = f a := rfl

variable {cell : Int → Int} {n : Nat} {ch : Nat → Nat} {lt : Nat → Nat → Prop}

/-- a B* suffix -/
def star (lt : Nat → Nat → Prop) (i : Nat) : Prop := tB lt i ∧ ¬ tB lt (i + 1)

open Classical in
/-- What is put into the array when a suffix is placed before the first scan passes. -/
noncomputable def init1 (lt : Nat → Nat → Prop) (i : Nat) : Int := if i = 0 then 0 else if tB lt (i - 1) then i else inv i

open Classical in
/-- What is in the array before the second scan passes. -/
noncomputable def init2 (lt : Nat → Nat → Prop) (i : Nat) : Int := if 0 < i ∧ ¬ tB lt (i - 1) then i else inv i

/-- The text and its order. -/
structure Txt (cell : Int → Int) (n : Nat) (ch : Nat → Nat) (lt : Nat → Nat → Prop) (T : List UInt8) : Prop where
  O : SufOrd n ch lt
  len : T.length = n
  get : ∀ i, i < n → tget T i = .ok (ch i)
  lt256 : ∀ i, ch i < 256
  cell : ∀ v : Int, -n ≤ v → v < n → cell v = v

theorem Txt.cell1 {T : List UInt8} (X : Txt cell n ch lt T) {i : Nat} (hi : i < n) : cell (init1 lt i) = init1 lt i := by
  refine X.cell _ ?_ ?_ <;> unfold init1 inv <;> split_ifs <;> omega

theorem Txt.cell2 {T : List UInt8} (X : Txt cell n ch lt T) {i : Nat} (hi : i < n) : cell (init2 lt i) = init2 lt i := by
  refine X.cell _ ?_ ?_ <;> unfold init2 inv <;> split_ifs <;> omega

/-! ### The second scan -/

structure InvA (n : Nat) (ch : Nat → Nat) (lt : Nat → Nat → Prop) (p : Nat) (k : Int) (c2 : Nat) (A : Nat → Int) (SA : List Int) : Prop where
  len : SA.length = n
  fin : ∀ i, i < n → rk n lt i < p → SA[rk n lt i]? = some (i : Int)
  ini : ∀ i, i < n → p ≤ rk n lt i → (tB lt i ∨ i + 1 = n ∨ rk n lt (i + 1) < p) → SA[rk n lt i]? = some (init2 lt i)
  ptr : ∀ c, c < 256 → (if c = c2 then k else A c) = sA n ch c + cnt n (fun j => ch j = c ∧ ¬ tB lt j ∧ (j + 1 = n ∨ rk n lt (j + 1) < p))

/-- the pointer of the bucket is the rank of the suffix to be placed -/
theorem SufOrd.ptrA (O : SufOrd n ch lt) {i : Nat} (hi : i + 1 < n) (hA : ¬ tB lt i) :
    rk n lt i = sA n ch (ch i) + cnt n (fun j => ch j = ch i ∧ ¬ tB lt j ∧ (j + 1 = n ∨ rk n lt (j + 1) < rk n lt (i + 1))) := by
  rw [O.rk_left (by omega)]
  congr 1
  refine cnt_congr (fun j hj => ?_)
  constructor
  · rintro ⟨h1, h2⟩
    refine ⟨h1, fun hB => ?_, ?_⟩
    · have h3 := O.A_lt_B n i j (by omega) (by omega) hj h1.symm hA hB
      rcases (O.step i j (by omega) hj).mp h3 with h4 | h4
      · omega
      · exact O.asym h2 h4.2
    · rcases Nat.lt_or_ge (j + 1) n with h3 | h3
      · exact Or.inr ((O.rk_iff h3 hi).mpr h2)
      · exact Or.inl (by omega)
  · rintro ⟨h1, h2, h3⟩
    refine ⟨h1, ?_⟩
    rcases h3 with h3 | h3
    · rw [h3]; exact O.last _ hi
    · rcases Nat.lt_or_ge (j + 1) n with h4 | h4
      · exact (O.rk_iff h4 hi).mp h3
      · have : j + 1 = n := by omega
        rw [this]; exact O.last _ hi

theorem scanA_spec {T : List UInt8} (X : Txt cell n ch lt T) : ∀ (r p : Nat) (k : Int) (c2 : Nat) (A : Nat → Int) (SA : List Int), p + r = n →
    InvA n ch lt p k c2 A SA →
    ∃ SA', scanA cell T r p k c2 A SA = .ok SA' ∧ SA'.length = n ∧ ∀ i, i < n → SA'[rk n lt i]? = some (i : Int)
  | 0, p, k, c2, A, SA, hp, I => ⟨SA, rfl, I.len, fun i hi => I.fin i hi (by have := X.O.rk_lt hi; omega)⟩
  | r + 1, p, k, c2, A, SA, hp, I => by
    obtain ⟨i, hi, hri⟩ := X.O.rk_surj (p := p) (by omega)
    have hcond : tB lt i ∨ i + 1 = n ∨ rk n lt (i + 1) < p := by
      by_cases hB : tB lt i
      · exact Or.inl hB
      · rcases Nat.lt_or_ge (i + 1) n with h | h
        · exact Or.inr (Or.inr (by rw [← hri]; exact X.O.rk_mono h (X.O.tA_lt hi hB)))
        · exact Or.inr (Or.inl (by omega))
    have hg := I.ini i hi (by omega) hcond
    rw [hri] at hg
    unfold scanA
    rw [sget_ok hg, bind_ok]
    by_cases hpos : 0 < i ∧ ¬ tB lt (i - 1)
    · have e2 : init2 lt i = i := by unfold init2; rw [if_pos hpos]
      obtain ⟨s, rfl⟩ : ∃ s, i = s + 1 := ⟨i - 1, by omega⟩
      have hA : ¬ tB lt s := hpos.2
      have hs : s < n := by omega
      have es : ((s + 1 : Nat) : Int) - 1 = (s : Int) := by omega
      rw [e2, if_pos (by omega : (0 : Int) < ((s + 1 : Nat) : Int))]
      rw [es, X.get s hs, bind_ok]
      have hv : (if (s : Int) = 0 then Except.ok (inv s) else
          (tget T (((s + 1 : Nat) : Int) - 2)).bind fun c => .ok (if c < ch s then inv s else s)) = (.ok (init2 lt s) : Res Int) := by
        by_cases h0 : s = 0
        · subst h0
          rw [if_pos (by simp)]
          unfold init2
          rw [if_neg (by simp)]
        · rw [if_neg (by omega)]
          have e3 : ((s + 1 : Nat) : Int) - 2 = ((s - 1 : Nat) : Int) := by omega
          rw [e3, X.get (s - 1) (by omega), bind_ok]
          unfold init2
          have hp := X.O.pred_A (s := s - 1) (by omega) (by rw [Nat.sub_add_cancel (by omega)]; exact hA)
          rw [Nat.sub_add_cancel (by omega)] at hp
          by_cases hc : ch (s - 1) < ch s
          · rw [if_pos hc, if_neg (fun h => h.2 (hp.mpr hc))]
          · rw [if_neg hc, if_pos ⟨by omega, fun h => hc (hp.mp h)⟩]
      rw [hv, bind_ok]
      have hk : ∀ k' A', ((k', A') : Int × (Nat → Int)) = (if ch s ≠ c2 then (upd A c2 k (ch s), upd A c2 k) else (k, A)) →
          k' = rk n lt s ∧ ∀ c, c ≠ ch s → A' c = if c = c2 then k else A c := by
        intro k' A' h
        have hptr := I.ptr (ch s) (X.lt256 s)
        have hr := X.O.ptrA (i := s) (by omega) hA
        rw [hri] at hr
        by_cases hc : ch s = c2
        · rw [if_neg (by simpa using hc)] at h
          cases h
          rw [if_pos hc] at hptr
          refine ⟨by omega, fun c hne => ?_⟩
          rw [if_neg (by rw [← hc]; exact hne)]
        · rw [if_pos hc] at h
          cases h
          rw [if_neg hc] at hptr
          refine ⟨?_, fun c hne => ?_⟩
          · unfold upd; rw [if_neg hc]; omega
          · rfl
      generalize hkA : (if ch s ≠ c2 then (upd A c2 k (ch s), upd A c2 k) else (k, A)) = kA at hk
      obtain ⟨k', A'⟩ := kA
      obtain ⟨rfl, hA'⟩ := hk k' A' rfl
      have hlt : p < rk n lt s := by
        rw [← hri]
        exact X.O.rk_mono hi (X.O.tA_lt hs hA)
      dsimp only
      rw [sset_ok (X.cell2 hs) (by rw [I.len]; exact X.O.rk_lt hs), bind_ok]
      have hnext := scanA_spec X r (p + 1) (rk n lt s + 1) (ch s) A' (SA.set (rk n lt s) (init2 lt s)) (by omega) {
        len := by rw [List.length_set]; exact I.len
        fin := by
          intro j hj h
          rw [List.getElem?_set_ne (by omega)]
          rcases Nat.lt_or_ge (rk n lt j) p with h1 | h1
          · exact I.fin j hj h1
          · have : j = s + 1 := X.O.rk_inj hj hi (by omega)
            subst this
            rw [hri, hg, e2]
        ini := by
          intro j hj h hc
          by_cases hjs : j = s
          · subst hjs
            rw [List.getElem?_set_self (by rw [I.len]; exact X.O.rk_lt hs)]
          · have hne : rk n lt s ≠ rk n lt j := fun h => hjs (X.O.rk_inj hj hs h.symm)
            rw [List.getElem?_set_ne hne]
            refine I.ini j hj (by omega) ?_
            rcases hc with h1 | h1 | h1
            · exact Or.inl h1
            · exact Or.inr (Or.inl h1)
            · rcases Nat.lt_or_ge (j + 1) n with h2 | h2
              · rcases Nat.lt_or_ge (rk n lt (j + 1)) p with h3 | h3
                · exact Or.inr (Or.inr h3)
                · have : j + 1 = s + 1 := X.O.rk_inj h2 hi (by omega)
                  omega
              · exact Or.inr (Or.inl (by omega))
        ptr := by
          intro c hc256
          by_cases hc : c = ch s
          · subst hc
            rw [if_pos rfl]
            have hr := X.O.ptrA (i := s) (by omega) hA
            rw [hri] at hr
            have := cnt_insert (n := n) (a := s) (P := fun j => ch j = ch s ∧ ¬ tB lt j ∧ (j + 1 = n ∨ rk n lt (j + 1) < p + 1))
              (Q := fun j => ch j = ch s ∧ ¬ tB lt j ∧ (j + 1 = n ∨ rk n lt (j + 1) < p)) hs (by
                rintro ⟨-, -, h | h⟩
                · omega
                · omega) (fun j hj => by
                constructor
                · rintro ⟨h1, h2, h3 | h3⟩
                  · exact Or.inl ⟨h1, h2, Or.inl h3⟩
                  · rcases Nat.lt_or_ge (j + 1) n with h4 | h4
                    · rcases Nat.lt_or_ge (rk n lt (j + 1)) p with h5 | h5
                      · exact Or.inl ⟨h1, h2, Or.inr h5⟩
                      · have : j + 1 = s + 1 := X.O.rk_inj h4 hi (by omega)
                        exact Or.inr (by omega)
                    · exact Or.inl ⟨h1, h2, Or.inl (by omega)⟩
                · rintro (⟨h1, h2, h3 | h3⟩ | rfl)
                  · exact ⟨h1, h2, Or.inl h3⟩
                  · exact ⟨h1, h2, Or.inr (by omega)⟩
                  · exact ⟨rfl, hA, Or.inr (by omega)⟩)
            omega
          · rw [if_neg hc, hA' c hc, I.ptr c hc256]
            congr 2
            refine cnt_congr (fun j hj => ?_)
            constructor
            · rintro ⟨h1, h2, h3 | h3⟩
              · exact ⟨h1, h2, Or.inl h3⟩
              · exact ⟨h1, h2, Or.inr (by omega)⟩
            · rintro ⟨h1, h2, h3 | h3⟩
              · exact ⟨h1, h2, Or.inl h3⟩
              · refine ⟨h1, h2, ?_⟩
                rcases Nat.lt_or_ge (j + 1) n with h4 | h4
                · rcases Nat.lt_or_ge (rk n lt (j + 1)) p with h5 | h5
                  · exact Or.inr h5
                  · have : j + 1 = s + 1 := X.O.rk_inj h4 hi (by omega)
                    have : j = s := by omega
                    subst this
                    exact absurd h1.symm hc
                · exact Or.inl (by omega) }
      exact hnext
    · have e2 : init2 lt i = inv i := by unfold init2; rw [if_neg hpos]
      rw [e2, if_neg (by unfold inv; omega), inv_inv, sset_ok (X.cell _ (by omega) (by omega)) (by rw [I.len]; omega), bind_ok]
      refine scanA_spec X r (p + 1) k c2 A (SA.set p i) (by omega) {
        len := by rw [List.length_set]; exact I.len
        fin := by
          intro j hj h
          rcases Nat.lt_or_ge (rk n lt j) p with h1 | h1
          · rw [List.getElem?_set_ne (by omega)]
            exact I.fin j hj h1
          · have : j = i := X.O.rk_inj hj hi (by omega)
            subst this
            rw [hri, List.getElem?_set_self (by rw [I.len]; omega)]
        ini := by
          intro j hj h hc
          rw [List.getElem?_set_ne (by omega)]
          refine I.ini j hj (by omega) ?_
          rcases hc with h1 | h1 | h1
          · exact Or.inl h1
          · exact Or.inr (Or.inl h1)
          · rcases Nat.lt_or_ge (j + 1) n with h2 | h2
            · rcases Nat.lt_or_ge (rk n lt (j + 1)) p with h3 | h3
              · exact Or.inr (Or.inr h3)
              · have : j + 1 = i := X.O.rk_inj h2 hi (by omega)
                subst this
                by_contra hcon
                exact hpos ⟨by omega, fun hB => hcon (Or.inl hB)⟩
            · exact Or.inr (Or.inl (by omega))
        ptr := by
          intro c hc256
          rw [I.ptr c hc256]
          congr 2
          refine cnt_congr (fun j hj => ?_)
          constructor
          · rintro ⟨h1, h2, h3 | h3⟩
            · exact ⟨h1, h2, Or.inl h3⟩
            · exact ⟨h1, h2, Or.inr (by omega)⟩
          · rintro ⟨h1, h2, h3 | h3⟩
            · exact ⟨h1, h2, Or.inl h3⟩
            · refine ⟨h1, h2, ?_⟩
              rcases Nat.lt_or_ge (j + 1) n with h4 | h4
              · rcases Nat.lt_or_ge (rk n lt (j + 1)) p with h5 | h5
                · exact Or.inr h5
                · have : j + 1 = i := X.O.rk_inj h4 hi (by omega)
                  subst this
                  exact absurd ⟨by omega, h2⟩ hpos
              · exact Or.inl (by omega) }

/-! ### The first scan -/

/-- The pointers of the buckets of two characters while the bucket of `c1` is scanned. -/
def ptrOf (q : Scan) (B : Nat → Int) (c1 a b : Nat) : Int := if b = c1 ∧ q.c2 = some a then q.k else B (bB a b)

structure InvB (n : Nat) (ch : Nat → Nat) (lt : Nat → Nat → Prop) (u p : Nat) (P : Nat → Nat → Int) (SA : List Int) : Prop where
  len : SA.length = n
  fin : ∀ i, i < n → tB lt i → p ≤ rk n lt i → SA[rk n lt i]? = some (init2 lt i)
  ini : ∀ i, i < n → tB lt i → rk n lt i < p → (¬ tB lt (i + 1) ∨ p ≤ rk n lt (i + 1)) → SA[rk n lt i]? = some (init1 lt i)
  ptr : ∀ a b, a ≤ b → b < u → P a b = eB n ch a b - cnt n (fun j => j + 1 < n ∧ ch j = a ∧ ch (j + 1) = b ∧ tB lt (j + 1) ∧ p ≤ rk n lt (j + 1))

theorem SufOrd.ptrB (O : SufOrd n ch lt) {i : Nat} (hi : i + 1 < n) (hB : tB lt (i + 1)) :
    (rk n lt i : Int) = eB n ch (ch i) (ch (i + 1)) -
      cnt n (fun j => j + 1 < n ∧ ch j = ch i ∧ ch (j + 1) = ch (i + 1) ∧ tB lt (j + 1) ∧ rk n lt (i + 1) + 1 ≤ rk n lt (j + 1)) := by
  rw [O.rk_right hi]
  congr 2
  refine cnt_congr (fun j hj => ?_)
  constructor
  · rintro ⟨h1, h2, h3, h4⟩
    refine ⟨h1, h2, h3, ?_, O.rk_mono hi h4⟩
    by_contra hA
    exact O.asym h4 (O.A_lt_B n (j + 1) (i + 1) (by omega) h1 hi h3 hA hB)
  · rintro ⟨h1, h2, h3, h4, h5⟩
    exact ⟨h1, h2, h3, (O.rk_iff hi h1).mp h5⟩

theorem bB_inj {a b c d : Nat} (hb : a < 256) (hc : c < 256) : bB a b = bB c d ↔ a = c ∧ b = d := by
  unfold bB
  have e : ∀ x y : Nat, x < 256 → y <<< 8 ||| x = y * 256 + x := by
    intro x y hx
    rw [Nat.shiftLeft_eq, Nat.mul_comm, ← Nat.two_pow_add_eq_or_of_lt (i := 8) (by omega)]
  rw [e a b hb, e c d hc]
  omega

theorem bB_ne_bS {a b c d : Nat} (ha : a < 256) (hd : d < 256) (hab : a ≤ b) (hcd : c < d) : bB a b ≠ bS c d := by
  show bB a b ≠ bB d c
  rw [Ne, bB_inj ha hd]
  omega

/-- passing a rank which is not of type B -/
theorem InvB.skip (O : SufOrd n ch lt) {u p p' : Nat} {P : Nat → Nat → Int} {SA : List Int} (I : InvB n ch lt u p P SA) (hp : p' ≤ p)
    (h : ∀ i, i < n → tB lt i → p' ≤ rk n lt i → p ≤ rk n lt i) : InvB n ch lt u p' P SA where
  len := I.len
  fin i hi hB hr := I.fin i hi hB (h i hi hB hr)
  ini i hi hB hr hc := by
    refine I.ini i hi hB (by omega) ?_
    by_cases h1 : tB lt (i + 1)
    · exact Or.inr (h _ (O.tB_lt hi hB) h1 (by rcases hc with h2 | h2; exact absurd h1 h2; exact h2))
    · exact Or.inl h1
  ptr a b hab hb := by
    rw [I.ptr a b hab hb]
    congr 2
    refine cnt_congr (fun j hj => ?_)
    constructor
    · rintro ⟨h1, h2, h3, h4, h5⟩
      exact ⟨h1, h2, h3, h4, by omega⟩
    · rintro ⟨h1, h2, h3, h4, h5⟩
      exact ⟨h1, h2, h3, h4, h _ h1 h4 h5⟩

/-- one bucket -/
theorem scanB_spec {T : List UInt8} (X : Txt cell n ch lt T) {c1 lo : Nat} (hlo : lo + nB n ch lt c1 = sA n ch (c1 + 1)) (hc1 : c1 < 256) :
    ∀ (r p : Nat) (q : Scan) (B : Nat → Int) (SA : List Int), p = lo + r → p ≤ sA n ch (c1 + 1) → (∀ a, q.c2 = some a → a ≤ c1) →
    InvB n ch lt (c1 + 1) p (ptrOf q B c1) SA →
    ∃ B' SA', scanB cell T c1 r ((p : Int) - 1) q B SA = .ok (B', SA') ∧ InvB n ch lt c1 lo (fun a b => B' (bB a b)) SA' ∧
      ∀ c d, c < d → d < 256 → B' (bS c d) = B (bS c d)
  | 0, p, q, B, SA, hp, hp2, hq, I => by
    refine ⟨B, SA, rfl, ?_, fun _ _ _ _ => rfl⟩
    obtain rfl : p = lo := by omega
    exact {
      len := I.len
      fin := I.fin
      ini := I.ini
      ptr := by
        intro a b hab hb
        rw [← I.ptr a b hab (by omega)]
        unfold ptrOf
        rw [if_neg (by omega)] }
  | r + 1, p1, q, B, SA, hp, hp2, hq, I => by
    obtain ⟨p, rfl⟩ : ∃ p, p1 = p + 1 := ⟨p1 - 1, by omega⟩
    have hn := sA_le n ch (c1 + 1)
    obtain ⟨i, hi, hri⟩ := X.O.rk_surj (p := p) (by omega)
    obtain ⟨hci, hB⟩ := (X.O.rk_B hi c1).mp ⟨by omega, by omega⟩
    have hi1 := X.O.tB_lt hi hB
    have hg := I.ini i hi hB (by omega) (by
      by_cases h : tB lt (i + 1)
      · exact Or.inr (by have := X.O.rk_mono hi hB; omega)
      · exact Or.inl h)
    rw [hri] at hg
    unfold scanB
    have ep : ((p + 1 : Nat) : Int) - 1 = (p : Int) := by omega
    rw [ep, sget_ok hg, bind_ok]
    by_cases hpos : 0 < i ∧ tB lt (i - 1)
    · have e1 : init1 lt i = i := by unfold init1; rw [if_neg (by omega), if_pos hpos.2]
      have e2 : init2 lt i = inv i := by unfold init2; rw [if_neg (fun h => h.2 hpos.2)]
      obtain ⟨s, rfl⟩ : ∃ s, i = s + 1 := ⟨i - 1, by omega⟩
      have hBs : tB lt s := hpos.2
      have hs : s < n := by omega
      have es : ((s + 1 : Nat) : Int) - 1 = (s : Int) := by omega
      rw [e1, if_pos (by omega : (0 : Int) < ((s + 1 : Nat) : Int)), sset_ok (X.cell _ (by unfold inv; omega) (by unfold inv; omega)) (by rw [I.len]; omega), bind_ok, es, X.get s hs, bind_ok]
      have hv : (if 0 < (s : Int) then
          (tget T (((s + 1 : Nat) : Int) - 2)).bind fun c => .ok (if c > ch s then inv s else s) else Except.ok (s : Int)) =
            (.ok (init1 lt s) : Res Int) := by
        by_cases h0 : s = 0
        · subst h0
          rw [if_neg (by simp)]
          unfold init1
          rw [if_pos rfl]; rfl
        · rw [if_pos (by omega)]
          have e3 : ((s + 1 : Nat) : Int) - 2 = ((s - 1 : Nat) : Int) := by omega
          rw [e3, X.get (s - 1) (by omega), bind_ok]
          unfold init1
          have hp := X.O.pred_B (s := s - 1) (by omega) (by rw [Nat.sub_add_cancel (by omega)]; exact hBs)
          rw [Nat.sub_add_cancel (by omega)] at hp
          rw [if_neg h0]
          by_cases hc : ch s < ch (s - 1)
          · rw [if_pos hc, if_neg (fun h => by have := hp.mp h; omega)]
          · rw [if_neg hc, if_pos (hp.mpr (by omega))]
      rw [hv, bind_ok]
      have hcs : ch s ≤ c1 := by rw [← hci]; exact X.O.le_ch hs hi hBs
      have hptr := I.ptr (ch s) c1 hcs (by omega)
      have hr := X.O.ptrB hi hB
      rw [hri, hci] at hr
      have hk : ∀ q' B', ((q', B') : Scan × (Nat → Int)) = (if q.c2 = some (ch s) then (q, B) else
        let B := match q.c2 with
          | some c2 => upd B (bB c2 c1) q.k
          | none => B
        (⟨B (bB (ch s) c1), some (ch s)⟩, B)) →
          q'.k = rk n lt s ∧ q'.c2 = some (ch s) ∧ (∀ a b, a ≤ b → b < c1 + 1 → ¬ (b = c1 ∧ a = ch s) → B' (bB a b) = ptrOf q B c1 a b) ∧
            ∀ c d, c < d → d < 256 → B' (bS c d) = B (bS c d) := by
        intro q' B' h
        by_cases hc : q.c2 = some (ch s)
        · rw [if_pos hc] at h
          cases h
          refine ⟨?_, hc, ?_, fun _ _ _ _ => rfl⟩
          · unfold ptrOf at hptr
            rw [if_pos ⟨rfl, hc⟩] at hptr
            omega
          · intro a b hab hb hne
            unfold ptrOf
            rw [if_neg (fun h => hne ⟨h.1, by have := h.2; rw [hc] at this; cases this; rfl⟩)]
        · rw [if_neg hc] at h
          cases hq2 : q.c2 with
          | none =>
            simp only [hq2] at h
            cases h
            refine ⟨?_, rfl, ?_, fun _ _ _ _ => rfl⟩
            · unfold ptrOf at hptr
              rw [if_neg (fun h => hc h.2)] at hptr
              show B _ = _
              omega
            · intro a b hab hb hne
              unfold ptrOf
              rw [if_neg (by rw [hq2]; simp)]
          | some c2 =>
            simp only [hq2] at h
            have hc2 := hq c2 hq2
            have hne2 : c2 ≠ ch s := fun h => hc (by rw [hq2, h])
            cases h
            refine ⟨?_, rfl, ?_, ?_⟩
            · unfold ptrOf at hptr
              rw [if_neg (fun h => hc h.2)] at hptr
              show upd B _ _ _ = _
              unfold upd
              rw [if_neg (by rw [bB_inj (by omega) (by omega)]; omega)]
              omega
            · intro a b hab hb hne
              unfold ptrOf upd
              by_cases h : b = c1 ∧ a = c2
              · obtain ⟨rfl, rfl⟩ := h
                rw [if_pos rfl, if_pos ⟨rfl, hq2⟩]
              · rw [if_neg (by rw [bB_inj (by omega) (by omega)]; omega), if_neg (by rw [hq2]; simp only [Option.some.injEq]; omega)]
            · intro c d hcd hd
              unfold upd
              rw [if_neg]
              exact (bB_ne_bS (by omega) hd hc2 hcd).symm
      generalize hkA : (if q.c2 = some (ch s) then (q, B) else
        let B := match q.c2 with
          | some c2 => upd B (bB c2 c1) q.k
          | none => B
        (⟨B (bB (ch s) c1), some (ch s)⟩, B)) = kA at hk
      obtain ⟨q', B'⟩ := kA
      obtain ⟨hk1, hk2, hk3, hk4⟩ := hk q' B' rfl
      dsimp only
      have hlt : rk n lt s < p := by rw [← hri]; exact X.O.rk_mono hs hBs
      rw [hk1, sset_ok (X.cell1 hs) (by rw [List.length_set, I.len]; omega), bind_ok]
      have hdec : ∀ a b, cnt n (fun j => j + 1 < n ∧ ch j = a ∧ ch (j + 1) = b ∧ tB lt (j + 1) ∧ p ≤ rk n lt (j + 1)) =
          cnt n (fun j => j + 1 < n ∧ ch j = a ∧ ch (j + 1) = b ∧ tB lt (j + 1) ∧ p + 1 ≤ rk n lt (j + 1)) +
          (if b = c1 ∧ a = ch s then 1 else 0) := by
        intro a b
        by_cases hab : b = c1 ∧ a = ch s
        · rw [if_pos hab]
          obtain ⟨rfl, rfl⟩ := hab
          refine cnt_insert hs (by rintro ⟨-, -, -, -, h⟩; omega) (fun j hj => ?_)
          constructor
          · rintro ⟨h1, h2, h3, h4, h5⟩
            rcases Nat.lt_or_ge p (rk n lt (j + 1)) with h6 | h6
            · exact Or.inl ⟨h1, h2, h3, h4, h6⟩
            · have := X.O.rk_inj h1 hi (by omega)
              exact Or.inr (by omega)
          · rintro (⟨h1, h2, h3, h4, h5⟩ | rfl)
            · exact ⟨h1, h2, h3, h4, by omega⟩
            · exact ⟨hi, rfl, hci, hB, by omega⟩
        · rw [if_neg hab, Nat.add_zero]
          refine cnt_congr (fun j hj => ?_)
          constructor
          · rintro ⟨h1, h2, h3, h4, h5⟩
            rcases Nat.lt_or_ge p (rk n lt (j + 1)) with h6 | h6
            · exact ⟨h1, h2, h3, h4, h6⟩
            · have := X.O.rk_inj h1 hi (by omega)
              obtain rfl : j = s := by omega
              exact absurd ⟨h3.symm.trans hci, h2.symm⟩ hab
          · rintro ⟨h1, h2, h3, h4, h5⟩
            exact ⟨h1, h2, h3, h4, by omega⟩
      obtain ⟨B'', SA'', h1, h2, h3⟩ := scanB_spec X hlo hc1 r p { q' with k := (rk n lt s : Int) - 1 } B'
        ((SA.set p (inv ((s + 1 : Nat) : Int))).set (rk n lt s) (init1 lt s)) (by omega) (by omega)
        (by intro a ha; rw [hk2] at ha; cases ha; exact hcs) {
          len := by rw [List.length_set, List.length_set]; exact I.len
          fin := by
            intro j hj hjB h
            rw [List.getElem?_set_ne (by omega)]
            rcases Nat.lt_or_ge p (rk n lt j) with h6 | h6
            · rw [List.getElem?_set_ne (by omega)]
              exact I.fin j hj hjB (by omega)
            · obtain rfl := X.O.rk_inj hj hi (by omega)
              rw [hri, List.getElem?_set_self (by rw [I.len]; omega), e2]
          ini := by
            intro j hj hjB h hc
            by_cases hjs : j = s
            · subst hjs
              rw [List.getElem?_set_self (by rw [List.length_set, I.len]; omega)]
            · rw [List.getElem?_set_ne (fun h => hjs (X.O.rk_inj hj hs h.symm)), List.getElem?_set_ne (by omega)]
              refine I.ini j hj hjB (by omega) ?_
              rcases hc with hc | hc
              · exact Or.inl hc
              · rcases Nat.lt_or_ge p (rk n lt (j + 1)) with h6 | h6
                · exact Or.inr h6
                · have := X.O.rk_inj (X.O.tB_lt hj hjB) hi (by omega)
                  omega
          ptr := by
            intro a b hab hb
            have := I.ptr a b hab hb
            rw [hdec a b]
            unfold ptrOf
            by_cases h : b = c1 ∧ a = ch s
            · obtain ⟨rfl, rfl⟩ := h
              rw [if_pos ⟨rfl, hk2⟩, if_pos ⟨rfl, rfl⟩]
              dsimp only
              omega
            · rw [if_neg h, if_neg (by dsimp only; rw [hk2]; simp only [Option.some.injEq]; omega), hk3 a b hab hb h]
              omega }
      exact ⟨B'', SA'', h1, h2, fun c d hcd hd => by rw [h3 c d hcd hd, hk4 c d hcd hd]⟩
    · have e1 : ¬ 0 < init1 lt i ∧ inv (init1 lt i) = init2 lt i := by
        unfold init1 init2
        by_cases h0 : i = 0
        · subst h0; simp [inv]
        · have h1 : ¬ tB lt (i - 1) := fun h => hpos ⟨by omega, h⟩
          rw [if_neg h0, if_neg h1, if_pos ⟨by omega, h1⟩]
          exact ⟨by unfold inv; omega, inv_inv _⟩
      rw [if_neg e1.1, e1.2, sset_ok (X.cell2 hi) (by rw [I.len]; omega), bind_ok]
      have hns : ∀ j, j + 1 < n → tB lt j → rk n lt (j + 1) ≠ p := by
        intro j hj hjB h
        have : j + 1 = i := X.O.rk_inj hj hi (by omega)
        subst this
        exact hpos ⟨by omega, hjB⟩
      refine scanB_spec X hlo hc1 r p q B (SA.set p (init2 lt i)) (by omega) (by omega) hq {
        len := by rw [List.length_set]; exact I.len
        fin := by
          intro j hj hjB h
          rcases Nat.lt_or_ge p (rk n lt j) with h6 | h6
          · rw [List.getElem?_set_ne (by omega)]
            exact I.fin j hj hjB (by omega)
          · obtain rfl := X.O.rk_inj hj hi (by omega)
            rw [hri, List.getElem?_set_self (by rw [I.len]; omega)]
        ini := by
          intro j hj hjB h hc
          rw [List.getElem?_set_ne (by omega)]
          refine I.ini j hj hjB (by omega) ?_
          rcases hc with hc | hc
          · exact Or.inl hc
          · have := hns j (X.O.tB_lt hj hjB) hjB
            exact Or.inr (by omega)
        ptr := by
          intro a b hab hb
          rw [I.ptr a b hab hb]
          congr 2
          refine cnt_congr (fun j hj => ?_)
          constructor
          · rintro ⟨h1, h2, h3, h4, h5⟩
            exact ⟨h1, h2, h3, h4, by omega⟩
          · rintro ⟨h1, h2, h3, h4, h5⟩
            have := hns j h1 ((X.O.pred_B h1 h4).mpr (by omega))
            exact ⟨h1, h2, h3, h4, by omega⟩ }

/-- all buckets: `d` buckets left, the ranks from `sA d` on are done -/
theorem constructB_spec {T : List UInt8} (X : Txt cell n ch lt T) {A : Nat → Int} (hA : ∀ c, c < 256 → A c = sA n ch c) :
    ∀ (d : Nat) (B : Nat → Int) (SA : List Int), d ≤ 255 → (∀ c, c < 255 → B (bS c (c + 1)) = (sA n ch (c + 1) : Int) - nB n ch lt c) →
    InvB n ch lt d (sA n ch d) (fun a b => B (bB a b)) SA →
    ∃ B' SA', constructB cell T A d B SA = .ok (B', SA') ∧ SA'.length = n ∧ ∀ i, i < n → tB lt i → SA'[rk n lt i]? = some (init2 lt i)
  | 0, B, SA, _, _, I => ⟨B, SA, rfl, I.len, fun i hi hB => I.fin i hi hB (by
      have : sA n ch 0 = 0 := cnt_zero (fun j _ h => by omega)
      omega)⟩
  | c1 + 1, B, SA, hd, hS, I => by
    have hn := nB_le n ch lt c1
    have hs := sA_succ n ch c1
    obtain ⟨B1, SA1, h1, h2, h3⟩ := scanB_spec X (lo := sA n ch (c1 + 1) - nB n ch lt c1) (c1 := c1) (by omega) (by omega) (nB n ch lt c1)
      (sA n ch (c1 + 1)) ⟨-1, none⟩ B SA (by omega) (Nat.le_refl _) (by simp) (by
        have e : ptrOf ⟨-1, none⟩ B c1 = fun a b => B (bB a b) := by
          funext a b
          unfold ptrOf
          rw [if_neg (by simp)]
        rw [e]
        exact I)
    unfold constructB
    have e : (A (c1 + 1) - 1 - B (bS c1 (c1 + 1)) + 1).toNat = nB n ch lt c1 := by
      rw [hA _ (by omega), hS c1 (by omega)]; omega
    rw [e, hA (c1 + 1) (by omega), h1, bind_ok]
    refine constructB_spec X hA c1 B1 SA1 (by omega) (fun c hc => by rw [h3 c (c + 1) (by omega) (by omega), hS c hc]) ?_
    refine h2.skip X.O (by omega) (fun i hi hB hr => ?_)
    by_contra hlt
    have hb := X.O.rk_bucket hi
    have hci : ch i = c1 := by
      rcases Nat.lt_trichotomy (ch i) c1 with h | h | h
      · have := sA_mono n ch (show ch i + 1 ≤ c1 by omega)
        omega
      · exact h
      · have := sA_mono n ch (show c1 + 1 ≤ ch i by omega)
        omega
    have := (X.O.rk_B hi c1).mpr ⟨hci, hB⟩
    omega

/-- A suffix which begins with the largest character is not of type B. -/
theorem Txt.not_tB_255 {T : List UInt8} (X : Txt cell n ch lt T) : ∀ (d i : Nat), i + d = n → ch i = 255 → i < n → ¬ tB lt i
  | 0, i, h, _, hi => by omega
  | d + 1, i, h, hc, hi => by
    intro hB
    have h1 := X.O.tB_lt hi hB
    have h2 := X.lt256 (i + 1)
    rcases (X.O.tB_step h1).mp hB with h3 | ⟨h3, h4⟩
    · omega
    · exact X.not_tB_255 d (i + 1) (by omega) (by omega) h1 h4

/-- `construct_SA` makes the suffix array from the sorted B* suffixes. -/
theorem constructSA_spec {T : List UInt8} (X : Txt cell n ch lt T) (hn : 2 ≤ n) {A B : Nat → Int} {m : Nat} {SA : List Int}
    (hA : ∀ c, c < 256 → A c = sA n ch c) (hlen : SA.length = n)
    (hm : m = 0 → ∀ i, i < n → ¬ tB lt i)
    (hS : 0 < m → ∀ c, c < 255 → B (bS c (c + 1)) = (sA n ch (c + 1) : Int) - nB n ch lt c)
    (hP : 0 < m → ∀ a b, a ≤ b → b < 255 → B (bB a b) = eB n ch a b)
    (hstar : 0 < m → ∀ i, i < n → star lt i → SA[rk n lt i]? = some (init1 lt i)) :
    ∃ SA', constructSA cell T A B m SA = .ok SA' ∧ SA'.length = n ∧ ∀ i, i < n → SA'[rk n lt i]? = some (i : Int) := by
  have h1 : ∃ SA1, (if 0 < (m : Int) then (constructB cell T A 255 B SA).bind fun (_, SA) => .ok SA else .ok SA) = (.ok SA1 : Res (List Int)) ∧
      SA1.length = n ∧ ∀ i, i < n → tB lt i → SA1[rk n lt i]? = some (init2 lt i) := by
    by_cases h0 : 0 < m
    · rw [if_pos (by omega)]
      have hno : ∀ i, i < n → tB lt i → rk n lt i < sA n ch 255 := by
        intro i hi hB
        have hb := X.O.rk_bucket hi
        have hc : ch i ≠ 255 := fun h => X.not_tB_255 (n - i) i (by omega) h hi hB
        have := X.lt256 i
        have := sA_mono n ch (show ch i + 1 ≤ 255 by omega)
        omega
      obtain ⟨B', SA', h2, h3, h4⟩ := constructB_spec X hA 255 B SA (Nat.le_refl _) (hS h0) {
        len := hlen
        fin := fun i hi hB h => by have := hno i hi hB; omega
        ini := fun i hi hB h hc => by
          refine hstar h0 i hi ⟨hB, ?_⟩
          rcases hc with hc | hc
          · exact hc
          · intro h5
            have := hno _ (X.O.tB_lt hi hB) h5
            omega
        ptr := fun a b hab hb => by
          rw [hP h0 a b hab hb, cnt_zero]
          · simp
          · rintro j hj ⟨h5, h6, h7, h8, h9⟩
            have := hno _ h5 h8
            omega }
      exact ⟨SA', by rw [h2]; rfl, h3, h4⟩
    · rw [if_neg (by omega)]
      exact ⟨SA, rfl, hlen, fun i hi hB => absurd hB (hm (by omega) i hi)⟩
  obtain ⟨SA1, h1, h2, h3⟩ := h1
  unfold constructSA
  rw [h1, bind_ok, X.len]
  have e1 : (n : Int) - 1 = ((n - 1 : Nat) : Int) := by omega
  have e2 : (n : Int) - 2 = ((n - 2 : Nat) : Int) := by omega
  rw [e1, e2, X.get (n - 1) (by omega), bind_ok, X.get (n - 2) (by omega), bind_ok]
  have hv : (if ch (n - 2) < ch (n - 1) then inv ((n - 1 : Nat) : Int) else ((n - 1 : Nat) : Int)) = init2 lt (n - 1) := by
    unfold init2
    have hp := X.O.pred_A (s := n - 2) (by omega) (X.O.not_tB_last (by omega))
    have e3 : n - 2 + 1 = n - 1 := by omega
    rw [e3] at hp
    have e4 : n - 1 - 1 = n - 2 := by omega
    rw [e4]
    by_cases hc : ch (n - 2) < ch (n - 1)
    · rw [if_pos hc, if_neg (fun h => h.2 (hp.mpr hc))]
    · rw [if_neg hc, if_pos ⟨by omega, fun h => hc (hp.mp h)⟩]
  have hr : rk n lt (n - 1) = sA n ch (ch (n - 1)) := by
    rw [X.O.rk_left (by omega), cnt_zero, Nat.add_zero]
    rintro j hj ⟨-, h⟩
    rw [Nat.sub_add_cancel (by omega)] at h
    rcases Nat.lt_or_ge (j + 1) n with h5 | h5
    · exact X.O.asym h (X.O.last _ h5)
    · have : j + 1 = n := by omega
      rw [this] at h
      exact X.O.irr _ h
  rw [hv, hA _ (X.lt256 _), ← hr, sset_ok (X.cell2 (by omega)) (by rw [h2]; exact X.O.rk_lt (by omega)), bind_ok]
  refine scanA_spec X n 0 _ _ A _ (by omega) {
    len := by rw [List.length_set, h2]
    fin := fun i _ h => by omega
    ini := fun i hi _ hc => by
      by_cases h5 : i = n - 1
      · subst h5
        rw [List.getElem?_set_self (by rw [h2]; exact X.O.rk_lt hi)]
      · rw [List.getElem?_set_ne (fun h => h5 (X.O.rk_inj (by omega) hi h).symm)]
        refine h3 i hi ?_
        rcases hc with hc | hc | hc
        · exact hc
        · omega
        · omega
    ptr := fun c hb => by
      by_cases hc : c = ch (n - 1)
      · subst hc
        rw [if_pos rfl, hr, cnt_one (a := n - 1) (by omega)]
        · rfl
        · intro j hj
          constructor
          · rintro ⟨-, -, h | h⟩ <;> omega
          · rintro rfl
            exact ⟨rfl, X.O.not_tB_last (by omega), Or.inl (by omega)⟩
      · rw [if_neg hc, cnt_zero]
        · rw [hA c hb]; simp
        · rintro j hj ⟨h5, -, h6 | h6⟩
          · obtain rfl : j = n - 1 := by omega
            exact hc h5.symm
          · omega }

end Tdc.DSS
