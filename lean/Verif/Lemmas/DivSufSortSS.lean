import Verif.Lemmas.DivSufSortFull
import Verif.Model.DivSufSortSS

/-! # Sorting a bucket by insertion -/

namespace Tdc

open DSS

variable {cell : Int → Int} {T : List UInt8}

theorem ssCmpLoop_spec (T : List UInt8) (e2 : Nat) (he2 : e2 ≤ T.length) : ∀ (d u1 u2 : Nat), u1 + d ≤ T.length → u2 ≤ e2 →
    ∃ r, ssCmpLoop T e2 d u1 u2 = .ok r ∧ (r < 0 ↔ (T.drop u1).take d < (T.drop u2).take (e2 - u2)) ∧
      (r = 0 ↔ (T.drop u1).take d = (T.drop u2).take (e2 - u2))
  | 0, u1, u2, h1, h2 => by
    refine ⟨_, rfl, ?_⟩
    rw [List.take_zero]
    rcases Nat.lt_or_eq_of_le h2 with h | h
    · obtain ⟨d, hd⟩ : ∃ d, e2 - u2 = d + 1 := ⟨e2 - u2 - 1, by omega⟩
      rw [if_pos (by omega), hd, List.drop_eq_getElem_cons (by omega), List.take_succ_cons]
      simp
    · subst h
      rw [if_neg (by omega), Nat.sub_self, List.take_zero]
      simp
  | d + 1, u1, u2, h1, h2 => by
    have X := dss_txt (cell := id) T (fun _ _ _ => rfl)
    unfold ssCmpLoop
    have ea : (T.drop u1).take (d + 1) = T[u1]'(by omega) :: (T.drop (u1 + 1)).take d := by
      rw [List.drop_eq_getElem_cons (by omega), List.take_succ_cons]
    rw [ea]
    rcases Nat.lt_or_eq_of_le h2 with h | h
    · obtain ⟨f, hf⟩ : ∃ f, e2 - u2 = f + 1 := ⟨e2 - u2 - 1, by omega⟩
      have hf' : e2 - (u2 + 1) = f := by omega
      have eb : (T.drop u2).take (f + 1) = T[u2]'(by omega) :: (T.drop (u2 + 1)).take f := by
        rw [List.drop_eq_getElem_cons (by omega), List.take_succ_cons]
      rw [if_pos (by omega), X.get _ (by omega), DSS.bind_ok, X.get _ (by omega), DSS.bind_ok, hf, eb]
      have c1 : dssCh T u1 = (T[u1]'(by omega)).toNat := by unfold dssCh; rw [getD_of_lt (by omega)]
      have c2 : dssCh T u2 = (T[u2]'(by omega)).toNat := by unfold dssCh; rw [getD_of_lt (by omega)]
      rw [c1, c2]
      by_cases hc : (T[u1]'(by omega)) = (T[u2]'(by omega))
      · have hc' : (T[u1]'(by omega)).toNat = (T[u2]'(by omega)).toNat := by rw [hc]
        obtain ⟨r, g1, g2, g3⟩ := ssCmpLoop_spec T e2 he2 d (u1 + 1) (u2 + 1) (by omega) h
        rw [hf'] at g2 g3
        rw [if_pos hc']
        refine ⟨r, ?_, ?_, ?_⟩
        · rw [← g1]; push_cast; rfl
        · rw [g2, hc, List.cons_lt_cons_iff]
          simp
        · rw [g3, hc]
          simp
      · have hc' : (T[u1]'(by omega)).toNat ≠ (T[u2]'(by omega)).toNat := fun h => hc (UInt8.toNat_inj.mp h)
        rw [if_neg hc']
        refine ⟨_, rfl, ?_, ?_⟩
        · rw [List.cons_lt_cons_iff, UInt8.lt_iff_toNat_lt]
          simp only [hc, false_and, or_false]
          omega
        · simp only [List.cons.injEq, hc, false_and, iff_false]
          omega
    · subst h
      rw [if_neg (by omega), Nat.sub_self, List.take_zero]
      refine ⟨1, rfl, ?_, ?_⟩
      · simp
      · simp

theorem append_lt_append_left {α : Type} [LT α] [DecidableEq α] (hirr : ∀ a : α, ¬ a < a) (p : List α) (a b : List α) : p ++ a < p ++ b ↔ a < b := by
  induction p with
  | nil => rfl
  | cons x p ih =>
    rw [List.cons_append, List.cons_append, List.cons_lt_cons_iff, ih]
    simp [hirr]

/-- where a substring ends -/
def bend (T : List UInt8) (x : Nat) : Nat := if x + 1 < (bstars T).length then bst T (x + 1) + 2 else T.length

theorem bend_spec {x : Nat} (hx : x < (bstars T).length) : bst T x + 2 ≤ bend T x ∧ bend T x ≤ T.length ∧ bkey T x = (T.drop (bst T x)).take (bend T x - bst T x) := by
  have h2 := bkey_two hx
  have h := (stars_bst T).end_le (dss_txt (cell := id) T (fun _ _ _ => rfl)).O hx
  rw [bkey_eq hx]
  rw [bkey_length hx] at h2
  unfold klen at h h2 ⊢
  unfold bend
  by_cases h1 : x + 1 < (bstars T).length
  · rw [if_pos h1] at h h2 ⊢
    rw [if_pos h1]
    have := (stars_bst T).mono x (x + 1) (by omega) h1
    exact ⟨by omega, by omega, rfl⟩
  · rw [if_neg h1] at h h2 ⊢
    rw [if_neg h1]
    exact ⟨by omega, by omega, rfl⟩

/-- two substrings with the same first `d` characters, and no end before -/
def SameTo (T : List UInt8) (d x y : Nat) : Prop := d ≤ (bkey T x).length ∧ d ≤ (bkey T y).length ∧ (bkey T x).take d = (bkey T y).take d

theorem sameTo_two {x y : Nat} (hx : x < (bstars T).length) (hy : y < (bstars T).length) (h2 : (bkey T x).take 2 = (bkey T y).take 2) : SameTo T 2 x y :=
  ⟨bkey_two hx, bkey_two hy, h2⟩

theorem bend_length {x : Nat} (hx : x < (bstars T).length) : bend T x = bst T x + (bkey T x).length := by
  obtain ⟨a1, a2, a3⟩ := bend_spec hx
  rw [a3, List.length_take, List.length_drop]
  omega

/-- The comparison of two B* substrings with the same first characters. -/
theorem ssCompare_spec {x y d : Nat} (hx : x < (bstars T).length) (hy : y < (bstars T).length) (h2 : SameTo T d x y) :
    ∃ r, ssCompare T (bst T x) ((bend T x : Int) - 2) (bst T y) ((bend T y : Int) - 2) d = .ok r ∧ (r < 0 ↔ bkey T x < bkey T y) ∧ (r = 0 ↔ bkey T x = bkey T y) := by
  obtain ⟨a1, a2, a3⟩ := bend_spec hx
  obtain ⟨b1, b2, b3⟩ := bend_spec hy
  obtain ⟨d1, d2, h2⟩ := h2
  have a4 := bend_length hx
  have b4 := bend_length hy
  obtain ⟨r, g1, g2, g3⟩ := ssCmpLoop_spec T (bend T y) b2 (bend T x - (bst T x + d)) (bst T x + d) (bst T y + d) (by omega) (by omega)
  have e : ∀ z, bst T z + d ≤ bend T z → bkey T z = (T.drop (bst T z)).take (bend T z - bst T z) →
      bkey T z = (bkey T z).take d ++ (T.drop (bst T z + d)).take (bend T z - (bst T z + d)) := fun z h1 h3 => by
    rw [h3, List.take_take, Nat.min_eq_left (by omega), ← List.drop_drop]
    have : bend T z - bst T z = d + (bend T z - (bst T z + d)) := by omega
    conv_lhs => rw [this, List.take_add]
  refine ⟨r, ?_, ?_, ?_⟩
  · unfold ssCompare
    rw [← g1]
    congr 1 <;> omega
  · rw [g2, e x (by omega) a3, e y (by omega) b3, h2, append_lt_append_left (fun a => UInt8.lt_irrefl a)]
  · rw [g3, e x (by omega) a3, e y (by omega) b3, h2, List.append_cancel_left_eq]

/-- the cells behind all numbers -/
def HasPos (T : List UInt8) (B : List Int) : Prop :=
  ∀ x, x < (bstars T).length → B[T.length - (bstars T).length + x]? = some (bst T x : Int)

theorem ssCompareAt_spec {B : List Int} (hB : HasPos T B) {x y d : Nat} (hx : x + 1 < (bstars T).length) (hy : y + 1 < (bstars T).length)
    (h2 : SameTo T d x y) :
    ∃ r, ssCompareAt T ((T.length : Int) - (bstars T).length) B x y d = .ok r ∧ (r < 0 ↔ bkey T x < bkey T y) ∧ (r = 0 ↔ bkey T x = bkey T y) := by
  have h2m := (divsufsort_bstars T).2
  obtain ⟨r, g1, g2⟩ := ssCompare_spec (T := T) (by omega) (by omega) h2
  refine ⟨r, ?_, g2⟩
  have e : ∀ z, (T.length : Int) - (bstars T).length + (z : Nat) = ((T.length - (bstars T).length + z : Nat) : Int) := fun z => by omega
  have e' : ∀ z, ((T.length - (bstars T).length + z : Nat) : Int) + 1 = ((T.length - (bstars T).length + (z + 1) : Nat) : Int) := fun z => by omega
  unfold ssCompareAt
  rw [e, e, e', e', sget_ok (hB x (by omega)), DSS.bind_ok, sget_ok (hB y (by omega)), DSS.bind_ok, sget_ok (hB (x + 1) hx), DSS.bind_ok, sget_ok (hB (y + 1) hy), DSS.bind_ok]
  rw [← g1]
  unfold bend
  rw [if_pos hx, if_pos hy]
  congr 1 <;> omega

/-- marked cells -/
theorem marked_eq {js : List Nat} {k : Nat} (hk : k < js.length) : marked T js k = some (if 0 < k ∧ js[k - 1]?.map (bkey T) = some (bkey T js[k]) then -(js[k] : Int) - 1 else js[k]) := by
  unfold marked
  rw [List.getElem?_eq_getElem hk]
  rfl

/-- the first of a group -/
def Head (T : List UInt8) (js : List Nat) (k : Nat) : Prop := ∀ (x y : Nat), 0 < k → js[k - 1]? = some x → js[k]? = some y → bkey T x ≠ bkey T y

theorem marked_head {js : List Nat} {k : Nat} (hk : k < js.length) (h : Head T js k) : marked T js k = some (js[k] : Int) := by
  rw [marked_eq hk, if_neg]
  rintro ⟨h0, h1⟩
  rw [List.getElem?_eq_getElem (by omega : k - 1 < js.length), Option.map_some, Option.some.injEq] at h1
  exact h _ _ h0 (List.getElem?_eq_getElem (by omega)) (List.getElem?_eq_getElem hk) h1

theorem marked_neg {js : List Nat} {k : Nat} (hk : k < js.length) {v : Int} (hv : marked T js k = some v) : v < 0 ↔ ¬ Head T js k := by
  constructor
  · intro h hh
    rw [marked_head hk hh, Option.some.injEq] at hv
    omega
  · intro h
    rw [marked_eq hk, Option.some.injEq] at hv
    have : 0 < k ∧ js[k - 1]?.map (bkey T) = some (bkey T js[k]) := by
      by_contra hc
      apply h
      intro x y h0 hx hy he
      apply hc
      rw [List.getElem?_eq_getElem hk, Option.some.injEq] at hy
      rw [hx, Option.map_some, he, hy]
      exact ⟨h0, rfl⟩
    rw [if_pos this] at hv
    omega

/-- the array while one number moves into the sorted list `js`, `k` places done -/
structure InsInv (T : List UInt8) (i : Nat) (js : List Nat) (B0 : List Int) (k : Nat) (B : List Int) : Prop where
  len : B.length = B0.length
  done : ∀ q, q < k → B[i + q]? = marked T js q
  rest : ∀ q, k ≤ q → q < js.length → B[i + 1 + q]? = marked T js q
  out : ∀ p, p < i ∨ i + 1 + js.length ≤ p → B[p]? = B0[p]?

theorem InsInv.shift {i : Nat} {js : List Nat} {B0 B : List Int} {k : Nat} (I : InsInv T i js B0 k B) (hk : k < js.length) {v : Int} (hv : marked T js k = some v)
    (hl : i + 1 + js.length ≤ B0.length) : InsInv T i js B0 (k + 1) (B.set (i + k) v) := by
  refine ⟨by rw [List.length_set, I.len], fun q hq => ?_, fun q h1 h2 => ?_, fun p hp => ?_⟩
  · by_cases h : q = k
    · subst h
      rw [List.getElem?_set_self (by rw [I.len]; omega), hv]
    · rw [List.getElem?_set_ne (by omega)]
      exact I.done q (by omega)
  · rw [List.getElem?_set_ne (by omega)]
    exact I.rest q (by omega) h2
  · rw [List.getElem?_set_ne (by omega)]
    exact I.out p hp

theorem marked_bound {js : List Nat} {k n : Nat} (hjs : ∀ x ∈ js, x < n) {v : Int} (hv : marked T js k = some v) : -(n : Int) ≤ v ∧ v < n := by
  unfold marked at hv
  cases h : js[k]? with
  | none => rw [h] at hv; simp at hv
  | some x =>
    have := hjs x (List.mem_of_getElem? h)
    rw [h, Option.map_some, Option.some.injEq] at hv
    split at hv <;> omega

theorem ssShift_spec {n : Nat} (hcell : ∀ v : Int, -n ≤ v → v < n → cell v = v) {i : Nat} {js : List Nat} {B0 : List Int} (hl : i + 1 + js.length ≤ B0.length)
    (hjs : ∀ x ∈ js, x < n) : ∀ (d k : Nat) (B : List Int), k + d + 1 = js.length → InsInv T i js B0 k B →
    ∃ k' B', ssShift cell d ((i + 1 + k : Nat) : Int) B = .ok (((i + 1 + k' : Nat) : Int), B') ∧ k < k' ∧ k' ≤ js.length ∧ InsInv T i js B0 k' B' ∧
      (∀ q, k < q → q < k' → ¬ Head T js q) ∧ (k' < js.length → Head T js k')
  | d, k, B, hd, I => by
    obtain ⟨v, hv⟩ : ∃ v, marked T js k = some v := ⟨_, marked_eq (by omega)⟩
    obtain ⟨hb1, hb2⟩ := marked_bound hjs hv
    have I' := I.shift (by omega) hv hl
    have h1 := I.rest k (Nat.le_refl _) (by omega)
    rw [hv] at h1
    have e1 : ((i + 1 + k : Nat) : Int) - 1 = ((i + k : Nat) : Int) := by omega
    have e2 : ((i + 1 + k : Nat) : Int) + 1 = ((i + 1 + (k + 1) : Nat) : Int) := by omega
    unfold ssShift
    rw [sget_ok h1, DSS.bind_ok, e1, e2, sset_ok (hcell _ hb1 hb2) (by rw [I.len]; omega), DSS.bind_ok]
    match d, hd with
    | 0, hd => exact ⟨k + 1, _, rfl, by omega, by omega, I', fun q h3 h4 => by omega, fun h3 => by omega⟩
    | d + 1, hd =>
      obtain ⟨w, hw⟩ : ∃ w, marked T js (k + 1) = some w := ⟨_, marked_eq (by omega)⟩
      have h2 := I'.rest (k + 1) (Nat.le_refl _) (by omega)
      rw [hw] at h2
      dsimp only
      rw [sget_ok h2, DSS.bind_ok]
      have hneg := marked_neg (by omega) hw
      by_cases h : w < 0
      · rw [if_pos h]
        obtain ⟨k', B', g1, g2, g3, g4, g5, g6⟩ := ssShift_spec hcell hl hjs d (k + 1) _ (by omega) I'
        refine ⟨k', B', g1, by omega, g3, g4, fun q h3 h4 => ?_, g6⟩
        by_cases h5 : q = k + 1
        · subst h5; exact hneg.mp h
        · exact g5 q (by omega) h4
      · rw [if_neg h]
        refine ⟨k + 1, _, rfl, by omega, by omega, I', fun q h3 h4 => by omega, fun _ => ?_⟩
        by_contra hc
        exact h (hneg.mpr hc)

/-- a place in a group has the substring of the place before -/
theorem not_head {js : List Nat} {q : Nat} (hq : q < js.length) (h : ¬ Head T js q) : 0 < q ∧ js[q - 1]?.map (bkey T) = some (bkey T js[q]) := by
  by_contra hc
  apply h
  intro x y h0 hx hy he
  apply hc
  rw [List.getElem?_eq_getElem hq, Option.some.injEq] at hy
  rw [hx, Option.map_some, he, hy]
  exact ⟨h0, rfl⟩

theorem ssInner_spec {n : Nat} (hcell : ∀ v : Int, -n ≤ v → v < n → cell v = v) {i : Nat} {js : List Nat} {B0 : List Int} (hl : i + 1 + js.length ≤ B0.length)
    (hn : (bstars T).length ≤ n) (hlen : T.length = B0.length) {t : Nat} (ht : t + 1 < (bstars T).length) {depth : Nat} (hjs : ∀ x ∈ js, x + 1 < (bstars T).length ∧ SameTo T depth t x)
    (hpos : HasPos T B0) (hm : i + 1 + js.length ≤ (bstars T).length) : ∀ (fuel k : Nat) (B : List Int),
    js.length < fuel + k → k < js.length → Head T js k → InsInv T i js B0 k B → (∀ q, q < k → ∀ x, js[q]? = some x → bkey T x < bkey T t) →
    ∃ r k' B', ssInner cell T ((T.length : Int) - (bstars T).length) depth ((i + 1 + js.length : Nat) : Int) t fuel ((i + 1 + k : Nat) : Int) B = .ok (r, ((i + 1 + k' : Nat) : Int), B') ∧
      k' ≤ js.length ∧ InsInv T i js B0 k' B' ∧ (∀ q, q < k' → ∀ x, js[q]? = some x → bkey T x < bkey T t) ∧ (k' < js.length → Head T js k') ∧
      (r = 0 → ∃ x, js[k']? = some x ∧ bkey T t = bkey T x) ∧ (r ≠ 0 → ∀ x, js[k']? = some x → bkey T t < bkey T x)
  | 0, k, B, hf, hk, _, _, _ => by omega
  | fuel + 1, k, B, hf, hk, hh, I, hlt => by
    have h2m := (divsufsort_bstars T).2
    have h1 := I.rest k (Nat.le_refl _) hk
    rw [marked_head hk hh] at h1
    have hpB : HasPos T B := fun x hx => by
      rw [I.out _ (Or.inr (by omega))]
      exact hpos x hx
    obtain ⟨hx1, hx2⟩ := hjs _ (List.getElem_mem hk)
    obtain ⟨r, c1, c2, c3⟩ := ssCompareAt_spec hpB ht hx1 hx2
    unfold ssInner
    rw [sget_ok h1, DSS.bind_ok, c1, DSS.bind_ok]
    by_cases hr : 0 < r
    · rw [if_pos hr]
      have hjk : bkey T js[k] < bkey T t := by
        rcases lex_total (bkey T t) (bkey T js[k]) with h | h | h
        · have := c2.mpr h; omega
        · have := c3.mpr h; omega
        · exact h
      have ed : (((i + 1 + js.length : Nat) : Int) - ((i + 1 + k : Nat) : Int) - 1).toNat = js.length - k - 1 := by omega
      rw [ed]
      obtain ⟨k', B', g1, g2, g3, g4, g5, g6⟩ := ssShift_spec hcell hl (fun x hx => by have := (hjs x hx).1; omega) (js.length - k - 1) k B (by omega) I
      have hall : ∀ q, k ≤ q → q < k' → ∀ x, js[q]? = some x → bkey T x = bkey T js[k] := by
        intro q
        induction q with
        | zero =>
          intro h3 h4 x hx
          have : k = 0 := by omega
          subst this
          rw [List.getElem?_eq_getElem hk, Option.some.injEq] at hx
          rw [hx]
        | succ q ih =>
          intro h3 h4 x hx
          by_cases h5 : k = q + 1
          · subst h5
            rw [List.getElem?_eq_getElem hk, Option.some.injEq] at hx
            rw [hx]
          · obtain ⟨-, h7⟩ := not_head (by omega) (g5 (q + 1) (by omega) h4)
            rw [Nat.add_sub_cancel, List.getElem?_eq_getElem (by omega : q < js.length), Option.map_some, Option.some.injEq] at h7
            rw [List.getElem?_eq_getElem (by omega : q + 1 < js.length), Option.some.injEq] at hx
            rw [← hx, ← h7]
            exact ih (by omega) (by omega) _ (List.getElem?_eq_getElem (by omega))
      have hlt' : ∀ q, q < k' → ∀ x, js[q]? = some x → bkey T x < bkey T t := fun q hq x hx => by
        by_cases h3 : q < k
        · exact hlt q h3 x hx
        · rw [hall q (by omega) hq x hx]; exact hjk
      rw [g1, DSS.bind_ok]
      dsimp only
      by_cases h3 : js.length ≤ k'
      · rw [if_pos (by omega)]
        exact ⟨r, k', B', rfl, g3, g4, hlt', fun h => by omega, fun h => by omega, fun _ x hx => by
          have := (List.getElem?_eq_some_iff.mp hx).1
          omega⟩
      · rw [if_neg (by omega)]
        exact ssInner_spec hcell hl hn hlen ht hjs hpos hm fuel k' B' (by omega) (by omega) (g6 (by omega)) g4 hlt'
    · rw [if_neg hr]
      refine ⟨r, k, B, rfl, by omega, I, hlt, fun _ => hh, fun h => ⟨_, List.getElem?_eq_getElem hk, c3.mp h⟩, fun h x hx => ?_⟩
      rw [List.getElem?_eq_getElem hk, Option.some.injEq] at hx
      rw [← hx]
      exact c2.mp (by omega)

end Tdc
