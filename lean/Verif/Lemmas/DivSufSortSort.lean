import Verif.Lemmas.DivSufSortMerge5

/-! # `sssort` -/

namespace Tdc

open DSS

variable {cell : Int → Int} {T : List UInt8}

/-- `sssort` keeps its contract if `ss_swapmerge` does. -/
theorem sssort_spec (hcell : ∀ v : Int, -T.length ≤ v → v < T.length → cell v = v) {sm : SwapMerge} (hsm : SwapMergeOk T sm) :
    SubSortOk T (sssort cell sm T T.length (bstars T).length) := by
  intro SA first is hl hp h1 hnd hmem hm htwo hlast hin
  have h2m := (divsufsort_bstars T).2
  have hpos : HasPos T SA := fun x hx => hp x _ (bst_get hx)
  have hm0 : 0 < (bstars T).length := by omega
  -- the part without the last suffix
  have hpart : ∀ (f : Nat) (rs : List Nat), 0 < rs.length → (∀ x ∈ rs, x + 1 < (bstars T).length) → f + rs.length ≤ (bstars T).length → (∀ x ∈ rs, ∀ y ∈ rs, (bkey T x).take 2 = (bkey T y).take 2) →
      (∀ (k x : Nat), rs[k]? = some x → SA[f + k]? = some (x : Int)) →
      ∃ (SA' : List Int) (js : List Nat),
        ssRange cell sm T ((T.length : Int) - (bstars T).length) (f : Int).toNat ((f + rs.length : Nat) : Int).toNat ((bstars T).length : Int).toNat
          ((T.length : Int) - 2 * ((bstars T).length : Int)).toNat SA = .ok SA' ∧
        SA'.length = SA.length ∧ js.Perm rs ∧ js.Pairwise (fun x y => ¬ bkey T y < bkey T x) ∧ (∀ k, k < js.length → SA'[f + k]? = marked T js k) ∧
        (∀ p, p < f ∨ (f + rs.length ≤ p ∧ p < (bstars T).length) ∨ T.length - (bstars T).length ≤ p → SA'[p]? = SA[p]?) := by
    intro f rs q0 q2 q3 q4 q5
    obtain ⟨B', js, g1, g2, g3, g4, g5, g6⟩ := ssRange_spec hcell hsm (is := rs) ⟨q2, q4⟩ ⟨hl, hpos⟩ (f := f) (l := f + rs.length) (ne_nil_of_length q0) rfl q3 q5
    have e1 : ((T.length : Int) - 2 * ((bstars T).length : Int)).toNat = T.length - 2 * (bstars T).length := by omega
    rw [Int.toNat_natCast, Int.toNat_natCast, Int.toNat_natCast, e1]
    exact ⟨B', js, g1, g5, g2, g3, g4, fun p hp => g6 p (by omega) (by omega)⟩
  unfold sssort
  dsimp only
  by_cases hls : is[0]? = some ((bstars T).length - 1)
  · have hflag : (is[0]? == some ((bstars T).length - 1)) = true := by rw [hls]; simp
    rw [hflag]
    simp only [if_true]
    obtain ⟨rs, rfl⟩ : ∃ rs, is = ((bstars T).length - 1) :: rs := by
      match is, hls with
      | x :: rs, h =>
        rw [List.getElem?_cons_zero, Option.some.injEq] at h
        exact ⟨rs, by rw [h]⟩
    rw [List.length_cons] at h1 hm
    have hnd' := List.nodup_cons.mp hnd
    have hrm : ∀ x ∈ rs, x + 1 < (bstars T).length := fun x hx => by
      have := hmem x (by simp [hx])
      have hne : x ≠ (bstars T).length - 1 := fun h => hnd'.1 (h ▸ hx)
      omega
    obtain ⟨SA1, js, g1, g2, g3, g4, g5, g6⟩ := hpart (first + 1) rs (by omega) hrm (by omega) (fun x hx y hy => htwo x (by simp [hx]) y (by simp [hy]))
      (fun k x hk => by
        have := hin (k + 1) x (by rw [List.getElem?_cons_succ]; exact hk)
        rw [← this]; congr 1; omega)
    have ef : (first : Int) + 1 = ((first + 1 : Nat) : Int) := by omega
    have el : first + (rs.length + 1) = first + 1 + rs.length := by omega
    rw [List.length_cons, el, ef, g1, DSS.bind_ok]
    have hjl := g3.length_eq
    have hpos1 : HasPos T SA1 := fun x hx => by rw [g6 _ (Or.inr (Or.inr (by omega)))]; exact hpos x hx
    have hf0 : SA1[first]? = some (((bstars T).length - 1 : Nat) : Int) := by
      rw [g6 _ (Or.inl (by omega))]
      exact hin 0 _ rfl
    have I : InsInv T first js SA1 0 SA1 := ⟨rfl, fun q hq => by omega, fun q _ hq => g5 q hq, fun _ _ => rfl⟩
    obtain ⟨k, SA2, k1, k2, k3, k4, k5, k6⟩ := ssInsertLast_spec hcell (i := first) (js := js) (B0 := SA1) (by omega) (by omega) (by omega) hm0
      (fun x hx => ⟨hrm x (g3.mem_iff.mp hx), htwo _ (by simp) x (by simp [g3.mem_iff.mp hx])⟩) hpos1 (by omega) js.length 0 SA1 (by omega) I (fun q hq => by omega)
    have e1 : ((first + 1 : Nat) : Int) - 1 = (first : Int) := by omega
    have e2 : (T.length : Int) - (bstars T).length + (((bstars T).length - 1 : Nat) : Int) = ((T.length - (bstars T).length + ((bstars T).length - 1) : Nat) : Int) := by omega
    have e3 : (((first + 1 + rs.length : Nat) : Int) - ((first + 1 : Nat) : Int)).toNat = js.length := by omega
    have e4 : ((first + 1 + k : Nat) : Int) - 1 = ((first + k : Nat) : Int) := by omega
    obtain ⟨p1, p2, p3⟩ := k3.put (t := (bstars T).length - 1) (w := none) k2 (by omega) k4 k5 (Or.inl ⟨rfl, rfl, k6⟩)
    have hl2 := k3.len
    rw [e1, sget_ok hf0, DSS.bind_ok, e2, sget_ok (hpos1 _ (by omega)), DSS.bind_ok, e3]
    rw [Nat.add_zero] at k1
    rw [k1, DSS.bind_ok]
    dsimp only
    rw [e4, sset_ok (hcell _ (by omega) (by omega)) (by omega)]
    refine ⟨_, insAt js k ((bstars T).length - 1), rfl, by rw [p1, g2], (insAt_perm _ _ _).trans (g3.cons _), insAt_sorted g4 k4 (fun x hx h => lex_irrefl _ (lex_trans h (k6 x hx))), p2, fun p hp => ?_⟩
    rw [p3 p (by omega), g6 p (by omega)]
  · have hflag : (is[0]? == some ((bstars T).length - 1)) = false := by simpa using hls
    rw [hflag]
    simp only [Bool.false_eq_true, if_false]
    obtain ⟨SA1, js, g1, g2⟩ := hpart first is (by omega) (fun x hx => by
      have := hmem x hx
      have hne : x ≠ (bstars T).length - 1 := fun h => hls (hlast (h ▸ hx))
      omega) hm htwo hin
    exact ⟨SA1, js, by rw [g1, DSS.bind_ok], g2⟩

end Tdc
