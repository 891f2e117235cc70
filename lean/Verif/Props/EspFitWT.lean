import Verif.Lemmas.EspFitWT
import Verif.Props.EspSorted

/-!
# C58: the range coder with wavelet trees
-/

namespace Tdc
namespace Esp

/-- C58, part: the range coder with wavelet trees (with every threshold and `zero_min`): if compression ends normally, the text comes back. Missing: it does
not always end normally, see `range_fit_wt_aborts` and `range_fit_wt_threshold`. -/
theorem esp_range_fit_wt_sound_partial (o : FitOpts) {iter : List ((Nat × Nat) × Nat) → List ((Nat × Nat) × Nat)} (hit : ∀ l, (iter l).Perm l) (text : List UInt8)
    (hn : text.length ≤ 2 ^ 32) (bytes : List UInt8) (he : compressSorted (DRangeFitWT o) iter text = .ok bytes) : decompressSorted (DRangeFitWT o) bytes = .ok text :=
  esp_sorted_sound (fitWt_sound o (2 ^ 32)) hit text hn hn (by decide) bytes he

/-- The range coder with wavelet trees ends the program for the text of two bytes 1 (with no threshold). -/
theorem range_fit_wt_aborts : compressSorted (DRangeFitWT ⟨none, false⟩) id [1, 1] = .error .throw := by decide +kernel

/-- The list of values below `2^30` on which it fails without threshold: those whose smallest value is not 0, when unary code is predicted to be no longer
than binary code. -/
theorem range_fit_wt_aborts_iff {w mx : Nat} {l : List Nat} (h : ∀ x ∈ l, x ≤ mx) (hmx : mx < 2 ^ 30) :
    (∀ bits, (DRangeFitWT ⟨none, false⟩).enc w mx l ≠ .ok bits) ↔
    udBitsUnary (sufMins l).1 ≤ udBitsBinary w w (sufMins l).1 ∧ udSignCount (sufMins l).1 ≠ 0 := by
  rw [fitWt_check rfl h hmx]
  have : ∀ (a b : List Nat) (lm : Nat), a.length = b.length → (rangesLoop false lm a b).map Prod.fst = b := by
    intro a
    induction a with
    | nil => intro b lm h; rw [List.length_nil, eq_comm, List.length_eq_zero_iff] at h; subst h; rfl
    | cons x a ih =>
      intro b lm h
      cases b with
      | nil => simp at h
      | cons m b =>
        simp only [rangesLoop, Bool.false_and, Bool.false_eq_true, if_false, List.map_cons]
        rw [ih b _ (by simpa using h)]
  rw [this _ _ 0 (by
    have h1 := (fitMins_spec ⟨none, false⟩ l).1.length_eq
    have h2 := (fitMaxs_spec ⟨none, false⟩ (B := mx) (by omega) l h).1.length_eq
    omega)]
  rfl

/-- With a threshold of 200 percent or more (two numbers that are not both 0 then always count as close), the range of every non-empty list is `2^64 - 1`,
and the wavelet tree shifts an `int` by 64. -/
theorem range_fit_wt_threshold {close : Nat → Nat → Bool} (hc : ∀ a b, ¬ (a = 0 ∧ b = 0) → close a b = true) (zeroMin : Bool) (w mx : Nat) {l : List Nat}
    (hl : l ≠ []) : (DRangeFitWT ⟨some close, zeroMin⟩).enc w mx l = .error .ub := fitWt_top hc zeroMin w mx hl

/-! Witnesses -/

example : ((DRangeFitWT ⟨none, true⟩).enc 4 15 [0, 3, 15, 0, 12, 15, 15, 13, 12, 14]).bind ((DRangeFitWT ⟨none, true⟩).dec 4 15 10) =
    .ok ([0, 3, 15, 0, 12, 15, 15, 13, 12, 14], []) := by decide +kernel

/-- Values at most two apart count as close. -/
def close2 (a b : Nat) : Bool := decide (a ≤ b + 2 ∧ b ≤ a + 2)

example : ((DRangeFitWT ⟨some close2, false⟩).enc 4 15 [0, 3, 15, 0, 12, 15, 15, 13, 12, 14]).bind ((DRangeFitWT ⟨some close2, false⟩).dec 4 15 10) =
    .ok ([0, 3, 15, 0, 12, 15, 15, 13, 12, 14], []) := by decide +kernel

example : (DRangeFitWT ⟨some fun a b => decide (¬ (a = 0 ∧ b = 0)), false⟩).enc 4 9 [1, 3, 2] = .error .ub :=
  range_fit_wt_threshold (fun _ _ h => decide_eq_true h) _ _ _ (by simp)

example : (compressSorted (DRangeFitWT ⟨none, false⟩) id [0, 0]).bind (decompressSorted (DRangeFitWT ⟨none, false⟩)) = .ok [0, 0] := by decide +kernel

end Esp
end Tdc
