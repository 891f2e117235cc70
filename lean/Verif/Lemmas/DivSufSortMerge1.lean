import Verif.Model.DivSufSortMerge
import Verif.Lemmas.DivSufSortIntro3

/-! # `ss_rotate` -/

namespace Tdc

open DSS

variable {cell : Int → Int} {T : List UInt8} {B : List Int}

/-- the numbers in `[f, l)` can be stored -/
def Fits (cell : Int → Int) (f l : Nat) (B : List Int) : Prop := ∀ p, f ≤ p → p < l → ∃ v, B[p]? = some v ∧ cell v = v

/-- the array has at `p` what was at `σ p` -/
def Moved (σ : Nat → Nat) (B B' : List Int) : Prop := B'.length = B.length ∧ ∀ p : Nat, B'[p]? = B[σ p]?

theorem Moved.trans {σ τ : Nat → Nat} {B1 B2 : List Int} (h : Moved σ B B1) (h' : Moved τ B1 B2) : Moved (fun p => σ (τ p)) B B2 :=
  ⟨h'.1.trans h.1, fun p => by rw [h'.2, h.2]⟩

theorem Moved.fits {σ : Nat → Nat} {f l : Nat} {B1 : List Int} (h : Moved σ B B1) (hF : Fits cell f l B) (hs : ∀ p, f ≤ p → p < l → f ≤ σ p ∧ σ p < l) : Fits cell f l B1 := by
  intro p h1 h2
  rw [h.2]
  exact hF _ (hs p h1 h2).1 (hs p h1 h2).2

theorem Moved.congr {σ τ : Nat → Nat} {B1 : List Int} (h : Moved σ B B1) (e : ∀ p, σ p = τ p) : Moved τ B B1 := ⟨h.1, fun p => by rw [h.2, e]⟩

theorem Fits.lt {f l : Nat} (hF : Fits cell f l B) (h : f < l) : l ≤ B.length := by
  obtain ⟨v, hv, -⟩ := hF (l - 1) (by omega) (by omega)
  have := (List.getElem?_eq_some_iff.mp hv).1
  omega

theorem ssSwap_moved {f l p q : Nat} (hF : Fits cell f l B) (hp : f ≤ p ∧ p < l) (hq : f ≤ q ∧ q < l) :
    ∃ B', ssSwap cell p q B = .ok B' ∧ Moved (fun x => if x = p then q else if x = q then p else x) B B' := by
  obtain ⟨v, hv, cv⟩ := hF p hp.1 hp.2
  obtain ⟨w, hw, cw⟩ := hF q hq.1 hq.2
  have lp := (List.getElem?_eq_some_iff.mp hv).1
  have lq := (List.getElem?_eq_some_iff.mp hw).1
  unfold ssSwap
  rw [sget_ok hv, DSS.bind_ok, sget_ok hw, DSS.bind_ok, sset_ok cw lp, DSS.bind_ok, sset_ok cv (by rw [List.length_set]; exact lq)]
  refine ⟨_, rfl, by rw [List.length_set, List.length_set], fun x => ?_⟩
  dsimp only
  rw [List.getElem?_set, List.getElem?_set, List.length_set]
  by_cases h1 : q = x
  · subst h1
    rw [if_pos rfl, if_pos lq]
    by_cases h2 : q = p
    · subst h2; rw [if_pos rfl, ← hv]
    · rw [if_neg h2, if_pos rfl, hv]
  · rw [if_neg h1]
    by_cases h2 : p = x
    · subst h2; rw [if_pos rfl, if_pos lp, if_pos rfl, hw]
    · rw [if_neg h2, if_neg (fun h => h2 h.symm), if_neg (fun h => h1 h.symm)]

theorem ssSwapRange_moved {f l : Nat} : ∀ (d a b : Nat) (B : List Int), Fits cell f l B → f ≤ a → a + d ≤ b → b + d ≤ l →
    ∃ B', ssSwapRange cell d a b B = .ok B' ∧ Moved (fun x => if a ≤ x ∧ x < a + d then x - a + b else if b ≤ x ∧ x < b + d then x - b + a else x) B B'
  | 0, a, b, B, hF, h1, h2, h3 => ⟨B, rfl, rfl, fun p => by
      dsimp only
      rw [if_neg (by omega), if_neg (by omega)]⟩
  | d + 1, a, b, B, hF, h1, h2, h3 => by
    obtain ⟨B1, e1, M1⟩ := ssSwap_moved hF (p := a) (q := b) (by omega) (by omega)
    obtain ⟨B2, e2, M2⟩ := ssSwapRange_moved d (a + 1) (b + 1) B1 (M1.fits hF (fun p h4 h5 => by split_ifs <;> omega)) (by omega) (by omega) (by omega)
    unfold ssSwapRange
    rw [e1, DSS.bind_ok, e2]
    refine ⟨B2, rfl, (M1.trans M2).congr (fun p => ?_)⟩
    split_ifs <;> omega

theorem set_moved {p q : Nat} {v : Int} (hv : B[q]? = some v) (hp : p < B.length) : Moved (fun x => if x = p then q else x) B (B.set p v) := by
  refine ⟨List.length_set, fun x => ?_⟩
  dsimp only
  rw [List.getElem?_set]
  by_cases h : p = x
  · subst h; rw [if_pos rfl, if_pos hp, if_pos rfl, hv]
  · rw [if_neg h, if_neg (fun h' => h h'.symm)]

theorem ssRotUp_moved {f l : Nat} : ∀ (d a b : Nat) (B : List Int), Fits cell f l B → f ≤ a → a + d < b → b + d ≤ l →
    ∃ B', ssRotUp cell d a b B = .ok B' ∧ Moved (fun x => if a ≤ x ∧ x < a + d then x - a + b else if b ≤ x ∧ x < b + d then x - b + a + 1 else x) B B'
  | 0, a, b, B, hF, h1, h2, h3 => ⟨B, rfl, rfl, fun p => by
      dsimp only
      rw [if_neg (by omega), if_neg (by omega)]⟩
  | d + 1, a, b, B, hF, h1, h2, h3 => by
    have hlen := hF.lt (by omega)
    obtain ⟨v, hv, cv⟩ := hF b (by omega) (by omega)
    have M1 := set_moved hv (p := a) (by omega)
    have hF1 := M1.fits hF (fun p h4 h5 => by split_ifs <;> omega)
    obtain ⟨w, hw, cw⟩ := hF1 (a + 1) (by omega) (by omega)
    have M2 := set_moved hw (p := b) (by rw [M1.1]; omega)
    obtain ⟨B3, e3, M3⟩ := ssRotUp_moved d (a + 1) (b + 1) _ (M2.fits hF1 (fun p h4 h5 => by split_ifs <;> omega)) (by omega) (by omega) (by omega)
    unfold ssRotUp
    rw [sget_ok hv, DSS.bind_ok, sset_ok cv (by omega), DSS.bind_ok, sget_ok hw, DSS.bind_ok, sset_ok cw (by rw [M1.1]; omega), DSS.bind_ok, e3]
    refine ⟨B3, rfl, ((M1.trans M2).trans M3).congr (fun p => ?_)⟩
    split_ifs <;> omega

theorem ssRotDown_moved {f l : Nat} : ∀ (d a b : Nat) (B : List Int), Fits cell f l B → f + d ≤ b + 1 → b + d < a → a < l →
    ∃ B', ssRotDown cell d a b B = .ok B' ∧ Moved (fun x => if a - d < x ∧ x ≤ a then x + b - a else if b < x + d ∧ x ≤ b then x + a - b - 1 else x) B B'
  | 0, a, b, B, hF, h1, h2, h3 => ⟨B, rfl, rfl, fun p => by
      dsimp only
      rw [if_neg (by omega), if_neg (by omega)]⟩
  | d + 1, a, b, B, hF, h1, h2, h3 => by
    have hlen := hF.lt (by omega)
    obtain ⟨v, hv, cv⟩ := hF b (by omega) (by omega)
    have M1 := set_moved hv (p := a) (by omega)
    have hF1 := M1.fits hF (fun p h4 h5 => by split_ifs <;> omega)
    obtain ⟨w, hw, cw⟩ := hF1 (a - 1) (by omega) (by omega)
    have M2 := set_moved hw (p := b) (by rw [M1.1]; omega)
    unfold ssRotDown
    rw [sget_ok hv, DSS.bind_ok, sset_ok cv (by omega), DSS.bind_ok, sget_ok hw, DSS.bind_ok, sset_ok cw (by rw [M1.1]; omega), DSS.bind_ok]
    rcases Nat.eq_zero_or_pos d with h0 | h0
    · subst h0
      refine ⟨_, rfl, (M1.trans M2).congr (fun p => ?_)⟩
      split_ifs <;> omega
    · obtain ⟨B3, e3, M3⟩ := ssRotDown_moved d (a - 1) (b - 1) _ (M2.fits hF1 (fun p h4 h5 => by split_ifs <;> omega)) (by omega) (by omega) (by omega)
      rw [e3]
      refine ⟨B3, rfl, ((M1.trans M2).trans M3).congr (fun p => ?_)⟩
      split_ifs <;> omega

/-- `ss_rotate` exchanges two neighbouring parts of any lengths. -/
theorem ssRotate_moved {f l : Nat} : ∀ (fuel first middle last : Nat) (B : List Int), Fits cell f l B → f ≤ first → first ≤ middle → middle ≤ last → last ≤ l → last - first < fuel →
    ∃ B', ssRotate cell fuel first middle last B = .ok B' ∧
      Moved (fun x => if first ≤ x ∧ x < first + (last - middle) then x - first + middle else if first + (last - middle) ≤ x ∧ x < last then x - (last - middle) else x) B B'
  | 0, _, _, _, _, _, _, _, _, _, h => by omega
  | fuel + 1, first, middle, last, B, hF, h1, h2, h3, h4, hf => by
    unfold ssRotate
    dsimp only
    by_cases h0 : 0 < middle - first ∧ 0 < last - middle
    · have hlen := hF.lt (by omega)
      rw [if_pos h0]
      by_cases he : middle - first = last - middle
      · rw [if_pos he]
        obtain ⟨B1, e1, M1⟩ := ssSwapRange_moved (middle - first) first middle B hF h1 (by omega) (by omega)
        refine ⟨B1, e1, M1.congr (fun p => ?_)⟩
        split_ifs <;> omega
      · rw [if_neg he]
        by_cases hlr : middle - first < last - middle
        · rw [if_pos hlr]
          obtain ⟨t, ht, ct⟩ := hF (last - 1) (by omega) (by omega)
          obtain ⟨B1, e1, M1⟩ := ssRotDown_moved (middle - first) (last - 1) (middle - 1) B hF (by omega) (by omega) (by omega)
          have hF1 := M1.fits hF (fun p h4 h5 => by split_ifs <;> omega)
          have hMs : Moved (fun x => if x = last - 1 - (middle - first) then last - 1 else if last - 1 - (middle - first) < x ∧ x ≤ last - 1 then x + (middle - 1) - (last - 1) else
              if middle - 1 < x + (middle - first) ∧ x ≤ middle - 1 then x + (last - 1) - (middle - 1) - 1 else x) B (B1.set (last - 1 - (middle - first)) t) := by
            refine ⟨by rw [List.length_set, M1.1], fun x => ?_⟩
            dsimp only
            rw [List.getElem?_set]
            by_cases hx : last - 1 - (middle - first) = x
            · rw [if_pos hx, if_pos (by rw [M1.1]; omega), if_pos hx.symm, ht]
            · rw [if_neg hx, if_neg (fun h => hx h.symm), M1.2]
          obtain ⟨B2, e2, M2⟩ := ssRotate_moved fuel first middle (last - 1 - (middle - first)) _ (hMs.fits hF (fun p h4 h5 => by split_ifs <;> omega)) h1 h2 (by omega) (by omega) (by omega)
          rw [sget_ok ht, DSS.bind_ok, e1, DSS.bind_ok, sset_ok ct (by rw [M1.1]; omega), DSS.bind_ok, e2]
          refine ⟨B2, rfl, (hMs.trans M2).congr (fun p => ?_)⟩
          split_ifs <;> omega
        · rw [if_neg hlr]
          obtain ⟨t, ht, ct⟩ := hF first (by omega) (by omega)
          obtain ⟨B1, e1, M1⟩ := ssRotUp_moved (last - middle) first middle B hF (by omega) (by omega) (by omega)
          have hMs : Moved (fun x => if x = first + (last - middle) then first else if first ≤ x ∧ x < first + (last - middle) then x - first + middle else
              if middle ≤ x ∧ x < middle + (last - middle) then x - middle + first + 1 else x) B (B1.set (first + (last - middle)) t) := by
            refine ⟨by rw [List.length_set, M1.1], fun x => ?_⟩
            dsimp only
            rw [List.getElem?_set]
            by_cases hx : first + (last - middle) = x
            · rw [if_pos hx, if_pos (by rw [M1.1]; omega), if_pos hx.symm, ht]
            · rw [if_neg hx, if_neg (fun h => hx h.symm), M1.2]
          obtain ⟨B2, e2, M2⟩ := ssRotate_moved fuel (first + (last - middle) + 1) middle last _ (hMs.fits hF (fun p h4 h5 => by split_ifs <;> omega)) (by omega) (by omega) h3 h4 (by omega)
          rw [sget_ok ht, DSS.bind_ok, e1, DSS.bind_ok, sset_ok ct (by rw [M1.1]; omega), DSS.bind_ok, e2]
          refine ⟨B2, rfl, (hMs.trans M2).congr (fun p => ?_)⟩
          split_ifs <;> omega
    · rw [if_neg h0]
      refine ⟨B, rfl, rfl, fun p => ?_⟩
      dsimp only
      congr 1
      split_ifs <;> omega

end Tdc
