import Verif.Model.EspD
import Verif.Spec.DCoding
import Verif.Lemmas.IntCodes
import Verif.Props.BitIO
import Mathlib.Data.List.Forall2

/-!
# DPlain, DDiff, DRangeFit decode what they encode
-/

namespace Tdc
namespace Esp

/-! ## DPlain -/

theorem dplainDec_ok {w : Nat} (hw : w ≤ 64) : ∀ (l : List Nat) (rest : List Bool), (∀ x ∈ l, x < 2 ^ w) →
    dplainDec w l.length ((l.flatMap fun x => writeInt x w) ++ rest) = (l, rest)
  | [], rest, _ => by simp [dplainDec]
  | x :: l, rest, h => by
    have hx := h x (by simp)
    have hle : (2 : Nat) ^ w ≤ 2 ^ 64 := Nat.pow_le_pow_right (by omega) hw
    simp only [List.length_cons, dplainDec, List.flatMap_cons, List.append_assoc]
    rw [rdInt_writeInt 64 x w _ hx (by omega)]
    simp only
    rw [dplainDec_ok hw l rest (fun y hy => h y (by simp [hy]))]

theorem dplain_sound (N : Nat) : DPlain.Sound N := by
  intro w mx l bits rest h1 h2 h3 _ _ he
  simp only [DPlain, Except.ok.injEq] at *
  subst he
  rw [dplainDec_ok (by omega) l rest (fun x hx => by have := h1 x hx; omega)]

theorem dplain_total (N : Nat) : DPlain.Total N := fun _ _ l _ _ _ _ _ => ⟨_, rfl⟩

/-! ## Differences -/

/-- `last`, then the list, do not decrease. -/
def Up : Nat → List Nat → Prop
  | _, [] => True
  | last, x :: l => last ≤ x ∧ Up x l

theorem Up.mono : ∀ {l : List Nat} {a b : Nat}, b ≤ a → Up a l → Up b l
  | [], _, _, _, _ => trivial
  | _ :: _, _, _, h, h2 => ⟨Nat.le_trans h h2.1, h2.2⟩

theorem absDiffs_length : ∀ (l : List Nat) (last : Nat), (absDiffs last l).length = l.length
  | [], _ => rfl
  | x :: l, _ => by simp [absDiffs, absDiffs_length l x]

theorem absDiffs_lt {B : Nat} : ∀ (l : List Nat) (last : Nat), last < B → (∀ x ∈ l, x < B) → ∀ d ∈ absDiffs last l, d < B
  | [], _, _, _ => by simp [absDiffs]
  | x :: l, last, hl, h => by
    intro d hd
    have hx := h x (by simp)
    simp only [absDiffs, List.mem_cons] at hd
    rcases hd with rfl | hd
    · split <;> omega
    · exact absDiffs_lt l x hx (fun y hy => h y (by simp [hy])) d hd

theorem rdUnaries_ok {vw : Nat} : ∀ (l : List Nat) (rest : List Bool), (∀ x ∈ l, x < 2 ^ vw) →
    rdUnaries vw l.length (l.flatMap writeUnary ++ rest) = .ok (l, rest)
  | [], rest, _ => by simp [rdUnaries]
  | x :: l, rest, h => by
    have ih := rdUnaries_ok l rest (fun y hy => h y (by simp [hy]))
    simp only [List.length_cons, rdUnaries, List.flatMap_cons, List.append_assoc]
    rw [rdUnary_writeUnary]
    simp only [Except.bind, ih, Nat.mod_eq_of_lt (h x (by simp))]

theorem rdSigns_true {vw : Nat} (hv : vw ≤ 64) : ∀ (l : List Nat) (last : Nat) (rest : List Bool), last < 2 ^ vw → (∀ x ∈ l, x < 2 ^ vw) →
    rdSigns vw true last (absDiffs last l) (signs last l ++ rest) = (l, rest)
  | [], last, rest, _, _ => by simp [absDiffs, rdSigns, signs]
  | x :: l, last, rest, hl, h => by
    have hx := h x (by simp)
    have hle : (2 : Nat) ^ vw ≤ 2 ^ 64 := Nat.pow_le_pow_right (by omega) hv
    have ih := rdSigns_true hv l x rest hx (fun y hy => h y (by simp [hy]))
    simp only [absDiffs, rdSigns, signs, if_true]
    rcases Nat.lt_trichotomy last x with hlt | heq | hgt
    · have e1 : (last + (x - last)) % 2 ^ 64 = x := by rw [show last + (x - last) = x by omega, Nat.mod_eq_of_lt (by omega)]
      rw [if_pos (by omega : x ≥ last), if_pos (by omega : x - last ≠ 0), if_pos hlt]
      simp only [List.cons_append, List.nil_append, rdBit, if_true, e1, ih, Nat.mod_eq_of_lt hx]
    · subst heq
      simp only [ge_iff_le, Nat.le_refl, if_true, Nat.sub_self, ne_eq, not_true_eq_false, if_false, Nat.lt_irrefl, gt_iff_lt, List.nil_append, ih,
        Nat.mod_eq_of_lt hx]
    · have e1 : (last + 2 ^ 64 - (last - x)) % 2 ^ 64 = x := by omega
      rw [if_neg (by omega : ¬ x ≥ last), if_pos (by omega : last - x ≠ 0), if_neg (by omega : ¬ last < x), if_pos hgt]
      simp only [List.cons_append, List.nil_append, rdBit, Bool.false_eq_true, if_false, e1, ih, Nat.mod_eq_of_lt hx]

theorem rdSigns_false {vw : Nat} (hv : vw ≤ 64) : ∀ (l : List Nat) (last : Nat) (rest : List Bool), last < 2 ^ vw → (∀ x ∈ l, x < 2 ^ vw) → Up last l →
    rdSigns vw false last (absDiffs last l) rest = (l, rest)
  | [], last, rest, _, _, _ => by simp [absDiffs, rdSigns]
  | x :: l, last, rest, hl, h, hu => by
    have hx := h x (by simp)
    have hle : (2 : Nat) ^ vw ≤ 2 ^ 64 := Nat.pow_le_pow_right (by omega) hv
    have ih := rdSigns_false hv l x rest hx (fun y hy => h y (by simp [hy])) hu.2
    have hlx := hu.1
    simp only [absDiffs, rdSigns, Bool.false_eq_true, if_false]
    rw [if_pos (by omega : x ≥ last)]
    by_cases hd : x - last = 0
    · have : last = x := by omega
      subst this
      simp only [Nat.sub_self, ne_eq, not_true_eq_false, if_false, ih, Nat.mod_eq_of_lt hx]
    · have e1 : (last + (x - last)) % 2 ^ 64 = x := by rw [show last + (x - last) = x by omega, Nat.mod_eq_of_lt (by omega)]
      rw [if_pos hd]
      simp only [e1, ih, Nat.mod_eq_of_lt hx]

theorem signs_length : ∀ (l : List Nat) (last : Nat), (signs last l).length = (absDiffs last l).countP (fun d => decide (d ≠ 0))
  | [], _ => by simp [signs, absDiffs]
  | x :: l, last => by
    rw [signs, absDiffs, List.length_append, signs_length l x, List.countP_cons, Nat.add_comm]
    congr 1
    rcases Nat.lt_trichotomy last x with hlt | heq | hgt
    · rw [if_pos hlt, if_pos (by omega : x ≥ last)]
      simp; omega
    · subst heq; simp
    · rw [if_neg (by omega), if_pos hgt, if_neg (by omega : ¬ x ≥ last)]
      simp; omega

theorem sum_succ : ∀ l : List Nat, (l.map (· + 1)).sum = l.length + l.sum
  | [] => rfl
  | x :: l => by simp [sum_succ l]; omega

theorem udRuns_length : ∀ (l : List Nat) (c v : Nat), (udRuns c v l).length =
    (absDiffs v l).countP (fun d => decide (d ≠ 0)) + (if 0 < c ∨ l.head? = some v then 1 else 0)
  | [], c, v => by
    simp only [udRuns, absDiffs, List.countP_nil, List.head?_nil, Nat.zero_add]
    by_cases hc : c > 0
    · simp [hc]
    · obtain rfl : c = 0 := by omega
      simp
  | x :: l, c, v => by
    rw [udRuns, absDiffs, List.countP_cons]
    by_cases hx : x = v
    · subst hx
      rw [if_pos rfl, udRuns_length l (c + 1) x]
      simp
    · rw [if_neg hx, List.length_append, udRuns_length l 1 x]
      have hd : decide ((if x ≥ v then x - v else v - x) ≠ 0) = true := by
        rw [decide_eq_true_iff]; split <;> omega
      rw [if_pos hd]
      simp only [Nat.lt_one_iff, true_or, Nat.zero_lt_one, if_true, List.head?_cons, Option.some.injEq, hx, or_false]
      by_cases hc : c > 0
      · rw [if_pos hc, if_pos hc]; simp; omega
      · rw [if_neg hc, if_neg hc]; simp

theorem rdRuns_ok {vw w dw : Nat} (hw : w ≤ 64) (hdw : dw ≤ 64) : ∀ (l : List Nat) (c v fuel : Nat) (rest : List Bool), c + l.length < fuel → c + l.length < 2 ^ w →
    (0 < c → v < 2 ^ vw ∧ v < 2 ^ dw) → (∀ x ∈ l, x < 2 ^ vw ∧ x < 2 ^ dw) → (0 < c ∨ l.head? ≠ some v ∨ (v < 2 ^ vw ∧ v < 2 ^ dw)) →
    rdRuns vw w dw fuel (c + l.length) (((udRuns c v l).flatMap fun r => writeInt r.1 w ++ writeInt r.2 dw) ++ rest) = .ok (List.replicate c v ++ l, rest) := by
  have hle : (2 : Nat) ^ w ≤ 2 ^ 64 := Nat.pow_le_pow_right (by omega) hw
  have hle2 : (2 : Nat) ^ dw ≤ 2 ^ 64 := Nat.pow_le_pow_right (by omega) hdw
  -- one run
  have step : ∀ (c v n fuel : Nat) (bs rest : List Bool) (r : List Nat), 0 < c → c < 2 ^ w → v < 2 ^ vw ∧ v < 2 ^ dw →
      rdRuns vw w dw fuel n bs = .ok (r, rest) → rdRuns vw w dw (fuel + 1) (c + n) (writeInt c w ++ (writeInt v dw ++ bs)) = .ok (List.replicate c v ++ r, rest) := by
    intro c v n fuel bs rest r hc hcw hv he
    rw [rdRuns, if_neg (by omega), rdInt_writeInt 64 c w _ hcw (by omega)]
    simp only
    rw [rdInt_writeInt 64 v dw _ hv.2 (by omega)]
    simp only
    rw [if_neg (by omega), show c + n - c = n by omega, he]
    simp only [Except.bind, Nat.mod_eq_of_lt hv.1]
  intro l
  induction l with
  | nil =>
    intro c v fuel rest hf hcw hv _ _
    obtain ⟨fuel, rfl⟩ : ∃ k, fuel = k + 1 := ⟨fuel - 1, by simp at hf; omega⟩
    simp only [udRuns, List.length_nil, Nat.add_zero] at *
    by_cases hc : c > 0
    · rw [if_pos hc]
      simp only [List.flatMap_cons, List.flatMap_nil, List.append_nil, List.append_assoc]
      have := step c v 0 fuel rest rest [] hc hcw (hv hc) (by
        obtain ⟨k, rfl⟩ : ∃ k, fuel = k + 1 := ⟨fuel - 1, by omega⟩
        simp [rdRuns])
      simpa using this
    · obtain rfl : c = 0 := by omega
      simp [rdRuns]
  | cons x l ih =>
    intro c v fuel rest hf hcw hv hl hh
    simp only [List.length_cons] at hf hcw
    rw [udRuns]
    by_cases hx : x = v
    · subst hx
      rw [if_pos rfl]
      have hx2 := hl x (by simp)
      have := ih (c + 1) x fuel rest (by omega) (by omega) (fun _ => hx2) (fun y hy => hl y (by simp [hy])) (.inl (by omega))
      rw [List.length_cons, show c + (l.length + 1) = c + 1 + l.length by omega, this, List.replicate_succ']
      simp
    · rw [if_neg hx]
      have hx2 := hl x (by simp)
      have hl2 : ∀ y ∈ l, y < 2 ^ vw ∧ y < 2 ^ dw := fun y hy => hl y (by simp [hy])
      by_cases hc : c > 0
      · obtain ⟨fuel, rfl⟩ : ∃ k, fuel = k + 1 := ⟨fuel - 1, by omega⟩
        rw [if_pos hc]
        simp only [List.cons_append, List.nil_append, List.flatMap_cons, List.append_assoc]
        have := ih 1 x fuel rest (by omega) (by omega) (fun _ => hx2) hl2 (.inl (by omega))
        have := step c v (1 + l.length) fuel _ rest _ hc (by omega) (hv hc) this
        rw [List.length_cons, show c + (l.length + 1) = c + (1 + l.length) by omega, this]
        simp
      · obtain rfl : c = 0 := by omega
        have := ih 1 x fuel rest (by omega) (by omega) (fun _ => hx2) hl2 (.inl (by omega))
        rw [if_neg hc, List.length_cons, show 0 + (l.length + 1) = 1 + l.length by omega, List.nil_append, this]
        simp

theorem encUD_check (w dw : Nat) (sign : Bool) (l : List Nat) :
    encUD w dw sign l = .error .throw ↔ sign = false ∧ udBitsUnary l ≤ udBitsBinary w dw l ∧ udSignCount l ≠ 0 := by
  unfold encUD
  have h1 : (absDiffs 0 l |>.map (· + 1)).sum = l.length + (absDiffs 0 l).sum := by rw [sum_succ, absDiffs_length]
  have h2 : (signs 0 l).length = udSignCount l := signs_length l 0
  have h3 : (udRuns 0 0 l).length = udValCount l := by
    rw [udRuns_length, udValCount, udSignCount]
    simp
  by_cases hu : udBitsUnary l ≤ udBitsBinary w dw l
  · rw [if_pos hu]
    simp only [h1]
    cases sign with
    | true =>
      simp only [if_true, h2]
      rw [if_pos (by rw [udBitsUnary])]
      simp
    | false =>
      simp only [Bool.false_eq_true, if_false, List.length_nil, Nat.add_zero, true_and]
      by_cases h0 : udSignCount l = 0
      · rw [if_pos (by rw [udBitsUnary]; omega)]
        simp [h0]
      · rw [if_neg (by rw [udBitsUnary]; omega)]
        simp [h0, hu]
  · rw [if_neg hu]
    simp only [h3]
    rw [if_pos ⟨by rw [udBitsBinary], trivial⟩]
    simp [hu]

theorem encUD_cases (w dw : Nat) (sign : Bool) (l : List Nat) :
    (∃ bits, encUD w dw sign l = .ok bits) ∨ encUD w dw sign l = .error .throw := by
  unfold encUD
  split
  · simp only
    generalize (if sign = true then signs 0 l else []) = sg
    split
    · exact .inl ⟨_, rfl⟩
    · exact .inr rfl
  · simp only
    split
    · exact .inl ⟨_, rfl⟩
    · exact .inr rfl

theorem encUD_total (w dw : Nat) (l : List Nat) : ∃ bits, encUD w dw true l = .ok bits := by
  rcases encUD_cases w dw true l with h | h
  · exact h
  · have := (encUD_check w dw true l).1 h
    simp at this

theorem encUD_sound {vw w dw : Nat} (hv : vw ≤ 64) (hw : w ≤ 64) (hdw : dw ≤ 64) {sign : Bool} {l : List Nat} {bits : List Bool} (rest : List Bool)
    (hl : ∀ x ∈ l, x < 2 ^ vw ∧ x < 2 ^ dw) (hn : l.length < 2 ^ w) (hu : sign = false → Up 0 l) (he : encUD w dw sign l = .ok bits) :
    decUD vw w dw sign l.length (bits ++ rest) = .ok (l, rest) := by
  have hpos : 0 < 2 ^ vw := Nat.two_pow_pos vw
  have hl1 : ∀ x ∈ l, x < 2 ^ vw := fun x hx => (hl x hx).1
  unfold encUD at he
  split at he
  · simp only at he
    generalize hsg : (if sign = true then signs 0 l else []) = sg at he
    split at he
    · simp only [Except.ok.injEq] at he
      subst he
      simp only [decUD, List.cons_append, rdBit, if_true, List.append_assoc]
      have h1 := rdUnaries_ok (vw := vw) (absDiffs 0 l) (sg ++ rest) (absDiffs_lt l 0 hpos hl1)
      rw [absDiffs_length] at h1
      rw [h1]
      simp only [Except.bind]
      subst hsg
      cases sign with
      | true => rw [if_pos rfl, rdSigns_true hv l 0 rest hpos hl1]
      | false => rw [if_neg (by simp), List.nil_append, rdSigns_false hv l 0 rest hpos hl1 (hu rfl)]
    · cases he
  · simp only at he
    split at he
    · simp only [Except.ok.injEq] at he
      subst he
      simp only [decUD, List.cons_append, rdBit, Bool.false_eq_true, if_false]
      have := rdRuns_ok (vw := vw) hw hdw l 0 0 (l.length + (((udRuns 0 0 l).flatMap fun r => writeInt r.1 w ++ writeInt r.2 dw) ++ rest).length + 1) rest (by omega) (by omega) (by omega)
        hl (.inr (.inr ⟨hpos, Nat.two_pow_pos dw⟩))
      rw [Nat.zero_add] at this
      rw [this]
      simp
    · cases he

theorem ddiff_sound (N : Nat) : DDiff.SoundRhs N := by
  intro w mx l bits rest h1 h2 h3 _ _ h6 he
  have hle : (2 : Nat) ^ w ≤ 2 ^ 64 := Nat.pow_le_pow_right (by omega) (by omega)
  exact encUD_sound (by omega) (by omega) (by omega) rest (fun x hx => by have := h1 x hx; omega) (by omega) (by simp) he

theorem ddiff_total (N : Nat) : DDiff.Total N := fun w _ l _ _ _ _ _ => encUD_total w w l

/-! ## DRangeFit -/

theorem sufMins_spec : ∀ l : List Nat, List.Forall₂ (· ≤ ·) (sufMins l).1 l ∧ (∀ a, a ≤ (sufMins l).2 → Up a (sufMins l).1)
  | [] => ⟨.nil, fun _ _ => trivial⟩
  | x :: l => by
    obtain ⟨h1, h2⟩ := sufMins_spec l
    simp only [sufMins]
    by_cases hx : x < (sufMins l).2
    · rw [if_pos hx]
      exact ⟨.cons (Nat.le_refl _) h1, fun a ha => ⟨ha, h2 x (by omega)⟩⟩
    · rw [if_neg hx]
      exact ⟨.cons (by omega) h1, fun a ha => ⟨ha, h2 _ (Nat.le_refl _)⟩⟩

theorem thrMins_spec (close : Nat → Nat → Bool) : ∀ (ms : List Nat) (last : Nat), Up last ms →
    List.Forall₂ (· ≤ ·) (thrMins close last ms) ms ∧ Up last (thrMins close last ms)
  | [], _, _ => ⟨.nil, trivial⟩
  | x :: ms, last, h => by
    simp only [thrMins]
    split
    · obtain ⟨h1, h2⟩ := thrMins_spec close ms last (h.2.mono h.1)
      exact ⟨.cons h.1 h1, Nat.le_refl _, h2⟩
    · obtain ⟨h1, h2⟩ := thrMins_spec close ms x h.2
      exact ⟨.cons (Nat.le_refl _) h1, h.1, h2⟩

theorem forall2_trans {a b c : List Nat} (h1 : List.Forall₂ (· ≤ ·) a b) : List.Forall₂ (· ≤ ·) b c → List.Forall₂ (· ≤ ·) a c := by
  induction h1 generalizing c with
  | nil => intro h; cases h; exact .nil
  | cons h _ ih =>
    intro h2
    cases h2 with
    | cons h' h'' => exact .cons (Nat.le_trans h h') (ih h'')

theorem fitMins_spec (o : FitOpts) (l : List Nat) : List.Forall₂ (· ≤ ·) (fitMins o l) l ∧ Up 0 (fitMins o l) := by
  have h := sufMins_spec l
  have h0 := h.2 0 (by omega)
  unfold fitMins
  cases o.close with
  | none => exact ⟨h.1, h0⟩
  | some c =>
    obtain ⟨h1, h2⟩ := thrMins_spec c _ 0 h0
    exact ⟨forall2_trans h1 h.1, h2⟩

/-- the value lies above its minimum, and the difference fits into its bits -/
def Fits (x : Nat) (mb : Nat × Nat) : Prop := mb.1 ≤ x ∧ x - mb.1 < 2 ^ mb.2 ∧ mb.2 < 64

theorem bitsFor_lt {x : Nat} (h : x < 2 ^ 63) : x < 2 ^ bitsFor x ∧ bitsFor x ≤ 63 := by
  have h1 := (bitsFor_exact x 63 (by omega)).2 ⟨by omega, h⟩
  have h2 := (bitsFor_exact x _ (by omega)).1 (Nat.le_refl _)
  exact ⟨h2.2, h1⟩

theorem fitLoop_spec (zm : Bool) : ∀ (l ms : List Nat) (mx lm last : Nat), List.Forall₂ (· ≤ ·) ms l → (∀ x ∈ l, x < 2 ^ 63) → mx < 2 ^ 63 → Up last ms →
    (zm = true → lm = last) → List.Forall₂ Fits l (fitLoop zm mx lm l ms) ∧ Up last ((fitLoop zm mx lm l ms).map Prod.fst)
  | [], _, _, _, _, h, _, _, _, _ => by
    cases h
    exact ⟨.nil, trivial⟩
  | x :: l, _, mx, lm, last, h, hl, hmx, hu, hz => by
    cases h with
    | @cons m _ ms _ hm hms =>
      have hx := hl x (by simp)
      simp only [fitLoop]
      generalize hmx' : (if x > mx then x else mx) = mx'
      have hmx1 : x ≤ mx' ∧ mx' < 2 ^ 63 := by subst hmx'; split <;> omega
      generalize hm' : (if zm && decide (bitsFor (mx' - 0) = bitsFor (mx' - m)) && decide (lm = 0) then 0 else m) = m'
      have hm1 : last ≤ m' ∧ m' ≤ m := by
        subst hm'
        split
        · rename_i hc
          simp only [Bool.and_eq_true, decide_eq_true_eq] at hc
          have := hz hc.1.1
          omega
        · exact ⟨hu.1, Nat.le_refl _⟩
      have hb := bitsFor_lt (x := mx' - m') (by omega)
      have hmod : bitsFor (mx' - m') % 2 ^ 6 = bitsFor (mx' - m') := Nat.mod_eq_of_lt (by omega)
      obtain ⟨h1, h2⟩ := fitLoop_spec zm l ms mx' (if zm then m' else lm) m' hms (fun y hy => hl y (by simp [hy])) hmx1.2 (hu.2.mono hm1.2) (by intro h; simp [h])
      refine ⟨.cons ⟨by simp only; omega, ?_, ?_⟩ h1, ?_⟩
      · simp only [hmod]; omega
      · simp only [hmod]; omega
      · simp only [List.map_cons]
        exact ⟨hm1.1, h2⟩

theorem rdFit_ok : ∀ {l : List Nat} {mb : List (Nat × Nat)} (rest : List Bool), List.Forall₂ Fits l mb → (∀ x ∈ l, x < 2 ^ 64) →
    rdFit (mb.map Prod.fst) (mb.map Prod.snd) (fitValues l mb ++ rest) = (l, rest)
  | _, _, rest, .nil, _ => by simp [rdFit, fitValues]
  | x :: l, (m, b) :: mb, rest, .cons h hs, hl => by
    obtain ⟨h1, h2, h3⟩ := h
    have hx := hl x (by simp)
    simp only [List.map_cons, rdFit, fitValues, List.append_assoc] at *
    rw [rdInt_writeInt 64 (x - m) b _ h2 (by omega)]
    simp only
    rw [rdFit_ok rest hs (fun y hy => hl y (by simp [hy])), show x - m + m = x by omega, Nat.mod_eq_of_lt hx]

theorem forall2_le_bound {B : Nat} {a b : List Nat} (h : List.Forall₂ (· ≤ ·) a b) (hb : ∀ x ∈ b, x < B) : ∀ x ∈ a, x < B := by
  induction h with
  | nil => simp
  | cons h _ ih =>
    intro x hx
    rcases List.mem_cons.1 hx with rfl | hx
    · have := hb _ (List.mem_cons_self ..); omega
    · exact ih (fun y hy => hb y (List.mem_cons_of_mem _ hy)) x hx

theorem fits_mem {l : List Nat} {mb : List (Nat × Nat)} (h : List.Forall₂ Fits l mb) : l.length = mb.length ∧ ∀ p ∈ mb, ∃ x ∈ l, Fits x p := by
  induction h with
  | nil => simp
  | cons h _ ih =>
    refine ⟨by simp [ih.1], ?_⟩
    intro p hp
    rcases List.mem_cons.1 hp with rfl | hp
    · exact ⟨_, List.mem_cons_self .., h⟩
    · obtain ⟨x, hx, hf⟩ := ih.2 p hp
      exact ⟨x, List.mem_cons_of_mem _ hx, hf⟩

theorem fit_sound (o : FitOpts) (N : Nat) : (DRangeFit o).SoundRhs N := by
  intro w mx l bits rest h1 h2 h3 _ _ h6 he
  have hle : (2 : Nat) ^ w ≤ 2 ^ 62 := Nat.pow_le_pow_right (by omega) (by omega)
  have hlx : ∀ x ∈ l, x < 2 ^ 62 := fun x hx => by have := h1 x hx; omega
  have hm := fitMins_spec o l
  obtain ⟨g1, g2⟩ := fitLoop_spec o.zeroMin l (fitMins o l) 0 0 0 hm.1 (fun x hx => by have := hlx x hx; omega) (by omega) hm.2 (by simp)
  simp only [DRangeFit, fitEnc, fitDec] at he ⊢
  generalize hmb : fitLoop o.zeroMin 0 0 l (fitMins o l) = mb at *
  obtain ⟨hlen, hmem⟩ := fits_mem g1
  cases e1 : encUD w w false (mb.map Prod.fst) with
  | error e => rw [e1] at he; cases he
  | ok b1 =>
    cases e2 : encUD w 64 true (mb.map Prod.snd) with
    | error e => rw [e1, e2] at he; cases he
    | ok b2 =>
      rw [e1, e2] at he
      simp only [Except.bind, Except.ok.injEq] at he
      subst he
      have d1 := encUD_sound (vw := 64) (by omega) (by omega) (by omega) (b2 ++ (fitValues l mb ++ rest)) (fun x hx => by
        obtain ⟨p, hp, rfl⟩ := List.mem_map.1 hx
        obtain ⟨y, hy, hf⟩ := hmem p hp
        have := h1 y hy
        have := hf.1
        omega) (by rw [List.length_map]; omega) (fun _ => g2) e1
      have d2 := encUD_sound (vw := 6) (by omega) (by omega) (by omega) (fitValues l mb ++ rest) (fun x hx => by
        obtain ⟨p, hp, rfl⟩ := List.mem_map.1 hx
        obtain ⟨y, hy, hf⟩ := hmem p hp
        have := hf.2.2
        omega) (by rw [List.length_map]; omega) (by simp) e2
      rw [List.length_map, ← hlen] at d1 d2
      rw [List.append_assoc, List.append_assoc, d1]
      simp only [Except.bind]
      rw [d2]
      simp only
      rw [rdFit_ok rest g1 (fun x hx => by have := hlx x hx; omega)]

/-- When the coder fails: exactly if the minima are not all 0 and unary coding is predicted to be no longer than binary coding. -/
theorem fit_check (o : FitOpts) (w mx : Nat) (l : List Nat) : (∀ bits, (DRangeFit o).enc w mx l ≠ .ok bits) ↔
    udBitsUnary ((fitLoop o.zeroMin 0 0 l (fitMins o l)).map Prod.fst) ≤ udBitsBinary w w ((fitLoop o.zeroMin 0 0 l (fitMins o l)).map Prod.fst) ∧
      udSignCount ((fitLoop o.zeroMin 0 0 l (fitMins o l)).map Prod.fst) ≠ 0 := by
  simp only [DRangeFit, fitEnc]
  generalize fitLoop o.zeroMin 0 0 l (fitMins o l) = mb
  obtain ⟨b2, e2⟩ := encUD_total w 64 (mb.map Prod.snd)
  rcases encUD_cases w w false (mb.map Prod.fst) with ⟨b1, h⟩ | h
  · simp only [h, e2, Except.bind]
    constructor
    · intro hc; exact absurd rfl (hc _)
    · intro hc
      have := (encUD_check w w false _).2 ⟨rfl, hc⟩
      rw [this] at h; cases h
  · simp only [h, Except.bind]
    have := (encUD_check w w false _).1 h
    simp [this.2]

end Esp
end Tdc
