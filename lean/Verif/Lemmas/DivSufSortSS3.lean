import Verif.Lemmas.DivSufSortSS2

/-! # The insertion of the last B* suffix -/

namespace Tdc

open DSS

variable {cell : Int → Int} {T : List UInt8}

theorem ssInsertLast_spec {n : Nat} (hcell : ∀ v : Int, -n ≤ v → v < n → cell v = v) {i : Nat} {js : List Nat} {B0 : List Int} (hl : i + 1 + js.length ≤ B0.length)
    (hn : (bstars T).length ≤ n) (hlen : T.length = B0.length) (hm0 : 0 < (bstars T).length)
    (hjs : ∀ x ∈ js, x + 1 < (bstars T).length ∧ (bkey T ((bstars T).length - 1)).take 2 = (bkey T x).take 2)
    (hpos : HasPos T B0) (hm : i + 1 + js.length ≤ (bstars T).length) : ∀ (d k : Nat) (B : List Int),
    k + d = js.length → InsInv T i js B0 k B → (∀ q, q < k → ∀ x, js[q]? = some x → bkey T x < bkey T ((bstars T).length - 1)) →
    ∃ k' B', ssInsertLast cell T ((T.length : Int) - (bstars T).length) 2 T.length (bst T ((bstars T).length - 1)) d ((i + 1 + k : Nat) : Int) B = .ok (((i + 1 + k' : Nat) : Int), B') ∧
      k' ≤ js.length ∧ InsInv T i js B0 k' B' ∧ (∀ q, q < k' → ∀ x, js[q]? = some x → bkey T x < bkey T ((bstars T).length - 1)) ∧ (k' < js.length → Head T js k') ∧
      (∀ x, js[k']? = some x → bkey T ((bstars T).length - 1) < bkey T x)
  | 0, k, B, hd, I, hlt => ⟨k, B, rfl, by omega, I, hlt, fun h => by omega, fun x hx => by
      have := (List.getElem?_eq_some_iff.mp hx).1
      omega⟩
  | d + 1, k, B, hd, I, hlt => by
    have h2m := (divsufsort_bstars T).2
    have hk : k < js.length := by omega
    obtain ⟨v, hv⟩ : ∃ v, marked T js k = some v := ⟨_, marked_eq hk⟩
    obtain ⟨hb1, hb2⟩ := marked_bound (n := n) (fun x hx => by have := (hjs x hx).1; omega) hv
    have h1 := I.rest k (Nat.le_refl _) hk
    rw [hv] at h1
    have hpB : HasPos T B := fun x hx => by
      rw [I.out _ (Or.inr (by omega))]
      exact hpos x hx
    have I' := I.shift hk hv hl
    have hneg := marked_neg hk hv
    have e1 : ((i + 1 + k : Nat) : Int) - 1 = ((i + k : Nat) : Int) := by omega
    have e2 : ((i + 1 + k : Nat) : Int) + 1 = ((i + 1 + (k + 1) : Nat) : Int) := by omega
    have hgo : bkey T js[k] < bkey T ((bstars T).length - 1) → ∃ k' B',
        ((sset cell B (((i + 1 + k : Nat) : Int) - 1) v).bind fun B => ssInsertLast cell T ((T.length : Int) - (bstars T).length) 2 T.length
          (bst T ((bstars T).length - 1)) d (((i + 1 + k : Nat) : Int) + 1) B) = .ok (((i + 1 + k' : Nat) : Int), B') ∧
        k' ≤ js.length ∧ InsInv T i js B0 k' B' ∧ (∀ q, q < k' → ∀ x, js[q]? = some x → bkey T x < bkey T ((bstars T).length - 1)) ∧ (k' < js.length → Head T js k') ∧
        (∀ x, js[k']? = some x → bkey T ((bstars T).length - 1) < bkey T x) := fun h => by
      rw [e1, e2, sset_ok (hcell _ hb1 hb2) (by rw [I.len]; omega), DSS.bind_ok]
      refine ssInsertLast_spec hcell hl hn hlen hm0 hjs hpos hm d (k + 1) _ (by omega) I' (fun q hq x hx => ?_)
      by_cases h3 : q = k
      · subst h3
        rw [List.getElem?_eq_getElem hk, Option.some.injEq] at hx
        rw [← hx]; exact h
      · exact hlt q (by omega) x hx
    unfold ssInsertLast
    rw [sget_ok h1, DSS.bind_ok]
    by_cases hv0 : v < 0
    · rw [if_pos hv0, DSS.bind_ok, if_pos rfl]
      refine hgo ?_
      obtain ⟨h0, h3⟩ := not_head hk (hneg.mp hv0)
      rw [List.getElem?_eq_getElem (by omega : k - 1 < js.length), Option.map_some, Option.some.injEq] at h3
      rw [← h3]
      exact hlt (k - 1) (by omega) _ (List.getElem?_eq_getElem (by omega))
    · have hhd : Head T js k := by
        by_contra hc
        exact hv0 (hneg.mpr hc)
      have hvx : v = js[k] := by rw [marked_head hk hhd] at hv; exact (Option.some.inj hv).symm
      obtain ⟨hx1, hx2⟩ := hjs _ (List.getElem_mem hk)
      obtain ⟨r, c1, c2, c3⟩ := ssCompare_spec (T := T) (x := (bstars T).length - 1) (y := js[k]) (d := 2) (by omega) (by omega) (sameTo_two (by omega) (by omega) hx2)
      have b1 : (bend T ((bstars T).length - 1) : Int) - 2 = (T.length : Int) - 2 := by unfold bend; rw [if_neg (by omega)]
      have b2 : (bend T js[k] : Int) - 2 = (bst T (js[k] + 1) : Int) := by unfold bend; rw [if_pos hx1]; omega
      rw [b1, b2, Nat.cast_ofNat] at c1
      have p1 : (T.length : Int) - (bstars T).length + (js[k] : Nat) = ((T.length - (bstars T).length + js[k] : Nat) : Int) := by omega
      have p2 : ((T.length - (bstars T).length + js[k] : Nat) : Int) + 1 = ((T.length - (bstars T).length + (js[k] + 1) : Nat) : Int) := by omega
      rw [if_neg hv0]
      rw [hvx] at hgo ⊢
      rw [p1, p2, sget_ok (hpB js[k] (by omega)), DSS.bind_ok, sget_ok (hpB (js[k] + 1) hx1), DSS.bind_ok, c1, DSS.bind_ok, DSS.bind_ok]
      by_cases hr : 0 < r
      · rw [if_pos (decide_eq_true hr)]
        refine hgo ?_
        rcases lex_total (bkey T ((bstars T).length - 1)) (bkey T js[k]) with h | h | h
        · have := c2.mpr h; omega
        · have := c3.mpr h; omega
        · exact h
      · rw [if_neg (by simpa using hr)]
        refine ⟨k, B, rfl, by omega, I, hlt, fun _ => hhd, fun x hx => ?_⟩
        rw [List.getElem?_eq_getElem hk, Option.some.injEq] at hx
        rw [← hx]
        refine c2.mp ?_
        have : r ≠ 0 := fun h0 => by
          have := (bkey_same (T := T) (x := (bstars T).length - 1) (y := js[k]) (by omega) (by omega) (by omega) (c3.mp h0)).1
          omega
        omega

end Tdc
