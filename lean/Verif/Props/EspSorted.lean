import Verif.Lemmas.EspSort
import Verif.Lemmas.EspD
import Verif.Props.Esp

/-!
# Properties C57 and C58: the sorted coder of ESP grammars, with the plain, difference and range coders

The statements about compression and decompression hold for every coder of right-hand sides that meets `Spec/DCoding.lean`.
-/

namespace Tdc
namespace Esp

open Slp

theorem unaryDiffs_ok : ∀ (l : List Nat) (last : Nat) (rest : List Bool), Up last l → (∀ x ∈ l, x < 2 ^ 64) →
    rdUnaryDiffs l.length last (unaryDiffs last l ++ rest) = .ok (l, rest)
  | [], last, rest, _, _ => by simp [rdUnaryDiffs, unaryDiffs]
  | x :: l, last, rest, hu, h => by
    have hx := h x (by simp)
    have hl := hu.1
    have ih := unaryDiffs_ok l x rest hu.2 (fun y hy => h y (by simp [hy]))
    have e1 : (x + 2 ^ 64 - last) % 2 ^ 64 = x - last := by omega
    simp only [List.length_cons, rdUnaryDiffs, unaryDiffs, List.append_assoc, e1]
    rw [if_neg (by cases (x - last) <;> simp [writeUnary]), rdUnary_writeUnary]
    simp only [Except.bind, show last + (x - last) = x by omega, Nat.mod_eq_of_lt hx, ih]

theorem up_of_sorted : ∀ {l : List Nat} (a : Nat), l.Pairwise (· ≤ ·) → (∀ x ∈ l, a ≤ x) → Up a l
  | [], _, _, _ => trivial
  | x :: l, a, h, ha => by
    rw [List.pairwise_cons] at h
    exact ⟨ha x (by simp), up_of_sorted x h.2 h.1⟩

/-- The sorted coder: what it encodes, it decodes to the sorted grammar; it encodes if the coder of right-hand sides does. -/
theorem sorted_roundtrip {N : Nat} {d : DCoder} (hd : d.SoundRhs N) {s : SLP} (h0 : s.empty = true → s.rules = [] ∧ s.root = 0) (ho : Ordered s.rules)
    (h1 : s.root < 256 → s.rules = []) (hr : s.root < 256 + s.rules.length) (hn : s.rules.length < 2 ^ 60) (hN : s.rules.length < N) :
    ∃ s', depSort s = .ok s' ∧ s'.empty = s.empty ∧ (∀ k u, DerivesIn s.rules k s.root u → DerivesIn s'.rules k s'.root u) ∧ s'.rules.length = s.rules.length ∧
      (∀ bits rest, sortedEnc d s = .ok bits → sortedDec d (bits ++ rest) = .ok s') ∧ (d.TotalRhs N → ∃ bits, sortedEnc d s = .ok bits) := by
  obtain ⟨s', e1, e2, e3, e4, e5, e6, e7, e8, e9⟩ := depSort_ok ho hr
  refine ⟨s', e1, e2, e9, e3, ?_⟩
  obtain ⟨rules, root, empty⟩ := s
  obtain ⟨rules', root', empty'⟩ := s'
  simp only at *
  subst e2
  unfold sortedEnc sortedDec
  rw [e1]
  simp only [Except.bind]
  cases empty' with
  | true =>
    obtain ⟨rfl, rfl⟩ := h0 rfl
    have hr0 : rules' = [] := by simpa using e3
    have hroot : root' = 0 := e6 (by omega)
    subst hr0; subst hroot
    refine ⟨?_, fun _ => ⟨_, if_pos rfl⟩⟩
    intro bits rest he
    simp only [Bool.true_or, if_true, Except.ok.injEq] at he
    subst he
    have h6 := rdInt_writeInt 64 0 6 rest (by omega) (by omega)
    have e0 : ∀ v, writeInt v 0 = [] := fun v => rfl
    simp only [e0, List.append_nil, if_true, h6]
    simp [rdInt, rdIntAcc]
  | false =>
    have hlt : rules'.length + 256 - 1 < 2 ^ 61 := by omega
    have hw1 := (bitsFor_exact (rules'.length + 256 - 1) 61 (by omega)).2 ⟨by omega, hlt⟩
    have hw0 := ((bitsFor_exact (rules'.length + 256 - 1) _ (by omega)).1 (Nat.le_refl _))
    simp only [Bool.false_eq_true, if_false, Bool.false_or, decide_eq_true_eq]
    generalize hw : bitsFor (rules'.length + 256 - 1) = w at *
    have hle : (2 : Nat) ^ w ≤ 2 ^ 61 := Nat.pow_le_pow_right (by omega) hw1
    have hdr : ∀ rest : List Bool, rdInt 64 6 (writeInt w 6 ++ (writeInt (rules'.length + 256 - 1) w ++ (writeInt root' w ++ rest))) =
        (w, writeInt (rules'.length + 256 - 1) w ++ (writeInt root' w ++ rest)) ∧
        rdInt 64 w (writeInt (rules'.length + 256 - 1) w ++ (writeInt root' w ++ rest)) = (rules'.length + 256 - 1, writeInt root' w ++ rest) ∧
        rdInt 64 w (writeInt root' w ++ rest) = (root', rest) := fun rest =>
      ⟨rdInt_writeInt 64 w 6 _ (by omega) (by omega), rdInt_writeInt 64 _ w _ (by omega) (by omega), rdInt_writeInt 64 root' w _ (by omega) (by omega)⟩
    have hw0' : (w == 0) = false := by simp; omega
    by_cases hrt : root' < 256
    · have hr0 : rules' = [] := by
        have := h1 (e5.1 hrt)
        subst this
        simpa using e3
      subst hr0
      refine ⟨?_, fun _ => ⟨_, if_pos hrt⟩⟩
      intro bits rest he
      rw [if_pos hrt] at he
      simp only [Except.ok.injEq] at he
      subst he
      obtain ⟨d1, d2, d3⟩ := hdr rest
      simp only [List.append_assoc]
      rw [d1]
      simp only
      rw [d2]
      simp only
      rw [d3]
      simp only
      rw [if_pos (.inr hrt), hw0']
    · have hne : rules' ≠ [] := by
        rintro rfl
        simp only [List.length_nil] at e3
        omega
      have hne2 : rules'.map Prod.snd ≠ [] := by simpa using hne
      have hb2 : ∀ x ∈ rules'.map Prod.snd, x ≤ rules'.length + 256 - 1 := by
        intro x hx
        obtain ⟨p, hp, rfl⟩ := List.mem_map.1 hx
        have := (e7 p hp).2
        omega
      have hu : Up 0 (rules'.map Prod.fst) := up_of_sorted 0 e8 (by simp)
      have hb1 : ∀ x ∈ rules'.map Prod.fst, x < 2 ^ 64 := by
        intro x hx
        obtain ⟨p, hp, rfl⟩ := List.mem_map.1 hx
        have := (e7 p hp).1
        omega
      rw [if_neg hrt]
      constructor
      · intro bits rest he
        cases hb : d.enc w (rules'.length + 256 - 1) (rules'.map Prod.snd) with
        | error e => rw [hb] at he; cases he
        | ok b =>
          rw [hb] at he
          simp only [Except.ok.injEq] at he
          subst he
          have hdec := hd w _ _ b rest hb2 (by omega) (by omega) (by rw [List.length_map]; omega) hne2 (by rw [List.length_map]; omega) hb
          rw [List.length_map] at hdec
          have hlhs := unaryDiffs_ok (rules'.map Prod.fst) 0 (b ++ rest) hu hb1
          rw [List.length_map] at hlhs
          obtain ⟨d1, d2, d3⟩ := hdr (unaryDiffs 0 (rules'.map Prod.fst) ++ (b ++ rest))
          simp only [List.append_assoc]
          rw [d1]
          simp only
          rw [d2]
          simp only
          rw [d3]
          simp only
          rw [if_neg (by omega), show rules'.length + 256 - 1 + 1 - 256 = rules'.length by omega, hlhs]
          simp only [hdec, hw0']
          rw [show (rules'.map Prod.fst).zip (rules'.map Prod.snd) = rules' from (List.zip_of_prod rfl rfl).symm]
      · intro ht
        obtain ⟨b, hb⟩ := ht w _ _ hb2 (by omega) (by omega) (by rw [List.length_map]; omega) hne2 (by rw [List.length_map]; omega)
        rw [hb]
        exact ⟨_, rfl⟩

theorem root_byte {rules : List (Nat × Nat)} {d root : Nat} {text : List UInt8} (h : DerivesIn rules d root text) (hn : rules.length + 1 ≤ text.length)
    (hlt : root < 256) : rules = [] := by
  have : text.length = 1 := by
    cases h with
    | byte => rfl
    | rule => omega
  exact List.length_eq_zero_iff.1 (by omega)

/-! ## C57 -/

/-- C57: with the sorted coder and any sound coder of right-hand sides, what esp compresses is decompressed to the text. -/
theorem esp_sorted_sound {N : Nat} {d : DCoder} (hd : d.SoundRhs N) {iter : List ((Nat × Nat) × Nat) → List ((Nat × Nat) × Nat)} (hit : ∀ l, (iter l).Perm l)
    (text : List UInt8) (hn : text.length ≤ 2 ^ 32) (hN : text.length ≤ N) (h1 : 1 ≤ N) (bytes : List UInt8) (he : compressSorted d iter text = .ok bytes) :
    decompressSorted d bytes = .ok text := by
  obtain ⟨s, g1, g2, _, g4, g5⟩ := generate_ok hit text hn
  simp only [compressSorted, g1, Except.bind] at he
  unfold decompressSorted
  by_cases ht : text = []
  · have := g4 ht
    subst this; subst ht
    obtain ⟨s', e1, e2, _, _, e5, _⟩ := sorted_roundtrip hd (s := ⟨[], 0, true⟩) (by simp) g2 (by simp) (by simp) (by simp) (by simp; omega)
    cases hb : sortedEnc d ⟨[], 0, true⟩ with
    | error e => rw [hb] at he; cases he
    | ok b =>
      rw [hb] at he
      simp only [Except.ok.injEq] at he
      subst he
      have := e5 b [] hb
      rw [List.append_nil] at this
      rw [bitsOf_toBytes, this]
      simp only [Except.bind, SLP.derive, e2, if_true]
  · obtain ⟨f1, f2, f3, k, _, f5⟩ := g5 ht
    have hlen : s.rules.length < text.length := by
      have : text.length ≠ 0 := by simpa using ht
      omega
    obtain ⟨s', e1, e2, e3, e4, e5, _⟩ := sorted_roundtrip hd (s := s) (by simp [f1]) g2 (root_byte f5 f2) f3 (by omega) (by omega)
    cases hb : sortedEnc d s with
    | error e => rw [hb] at he; cases he
    | ok b =>
      rw [hb] at he
      simp only [Except.ok.injEq] at he
      subst he
      have := e5 b [] hb
      rw [List.append_nil] at this
      rw [bitsOf_toBytes, this]
      simp only [Except.bind, SLP.derive, e2, f1, Bool.false_eq_true, if_false]
      rw [e4]
      exact deriveRec_of (e3 _ _ (der_ordered g2 f5 f3))

/-- C57: and if the coder of right-hand sides encodes everything, compression succeeds. -/
theorem esp_sorted_lossless {N : Nat} {d : DCoder} (hd : d.SoundRhs N) (ht : d.TotalRhs N) {iter : List ((Nat × Nat) × Nat) → List ((Nat × Nat) × Nat)}
    (hit : ∀ l, (iter l).Perm l) (text : List UInt8) (hn : text.length ≤ 2 ^ 32) (hN : text.length ≤ N) (h1 : 1 ≤ N) :
    ∃ bytes, compressSorted d iter text = .ok bytes ∧ decompressSorted d bytes = .ok text := by
  suffices h : ∃ bytes, compressSorted d iter text = .ok bytes by
    obtain ⟨b, hb⟩ := h
    exact ⟨b, hb, esp_sorted_sound hd hit text hn hN h1 b hb⟩
  obtain ⟨s, g1, g2, _, g4, g5⟩ := generate_ok hit text hn
  have : ∃ b, sortedEnc d s = .ok b := by
    by_cases h0 : text = []
    · have := g4 h0
      subst this
      obtain ⟨_, _, _, _, _, _, h⟩ := sorted_roundtrip hd (s := ⟨[], 0, true⟩) (by simp) g2 (by simp) (by simp) (by simp) (by simp; omega)
      exact h ht
    · obtain ⟨f1, f2, f3, k, _, f5⟩ := g5 h0
      have hlen : text.length ≠ 0 := by simpa using h0
      obtain ⟨_, _, _, _, _, _, h⟩ := sorted_roundtrip hd (s := s) (by simp [f1]) g2 (root_byte f5 f2) f3 (by omega) (by omega)
      exact h ht
  obtain ⟨b, hb⟩ := this
  exact ⟨_, by simp only [compressSorted, g1, hb, Except.bind]; rfl⟩

/-! ## C58 -/

/-- C58: plain right-hand sides. -/
theorem esp_sorted_plain_lossless {iter : List ((Nat × Nat) × Nat) → List ((Nat × Nat) × Nat)} (hit : ∀ l, (iter l).Perm l) (text : List UInt8)
    (hn : text.length ≤ 2 ^ 32) : ∃ bytes, compressSorted DPlain iter text = .ok bytes ∧ decompressSorted DPlain bytes = .ok text :=
  esp_sorted_lossless (dplain_sound (2 ^ 32)).rhs (dplain_total _).rhs hit text hn hn (by decide)

/-- C58: differences of right-hand sides. -/
theorem esp_sorted_diff_lossless {iter : List ((Nat × Nat) × Nat) → List ((Nat × Nat) × Nat)} (hit : ∀ l, (iter l).Perm l) (text : List UInt8)
    (hn : text.length ≤ 2 ^ 32) : ∃ bytes, compressSorted DDiff iter text = .ok bytes ∧ decompressSorted DDiff bytes = .ok text :=
  esp_sorted_lossless (ddiff_sound (2 ^ 32)) (ddiff_total _).rhs hit text hn hn (by decide)

/-- C58, part: the range coder (without wavelet trees, with every threshold and `zero_min`): if compression ends normally, the text comes back. Missing: it
does not always end normally, see `range_fit_aborts`. -/
theorem esp_range_fit_sound_partial (o : FitOpts) {iter : List ((Nat × Nat) × Nat) → List ((Nat × Nat) × Nat)} (hit : ∀ l, (iter l).Perm l) (text : List UInt8)
    (hn : text.length ≤ 2 ^ 32) (bytes : List UInt8) (he : compressSorted (DRangeFit o) iter text = .ok bytes) : decompressSorted (DRangeFit o) bytes = .ok text :=
  esp_sorted_sound (fit_sound o (2 ^ 32)) hit text hn hn (by decide) bytes he

/-- The range coder ends the program for the text of two bytes 1 (with the default options). -/
theorem range_fit_aborts : compressSorted (DRangeFit ⟨none, false⟩) id [1, 1] = .error .throw := by decide +kernel

/-- The list of values on which it fails: those whose smallest value is not 0, when unary code is predicted to be no longer than binary code. -/
theorem range_fit_aborts_iff (w mx : Nat) (l : List Nat) : (∀ bits, (DRangeFit ⟨none, false⟩).enc w mx l ≠ .ok bits) ↔
    udBitsUnary (sufMins l).1 ≤ udBitsBinary w w (sufMins l).1 ∧ udSignCount (sufMins l).1 ≠ 0 := by
  rw [fit_check]
  have : ∀ (l ms : List Nat) (a b : Nat), ms.length = l.length → (fitLoop false a b l ms).map Prod.fst = ms := by
    intro l
    induction l with
    | nil => intro ms a b h; rw [List.length_nil, List.length_eq_zero_iff] at h; subst h; rfl
    | cons x l ih =>
      intro ms a b h
      cases ms with
      | nil => simp at h
      | cons m ms =>
        simp only [fitLoop, Bool.false_and, Bool.false_eq_true, if_false, List.map_cons]
        rw [ih ms _ _ (by simpa using h)]
  rw [this l _ 0 0 (by have := (fitMins_spec ⟨none, false⟩ l).1.length_eq; exact this)]
  rfl

/-! Witnesses -/

example : (compressSorted DPlain id [98, 98, 97, 97, 97]).map List.length = .ok 41 := by decide +kernel

example : (compressSorted DPlain id [98, 98, 97, 97, 97]).bind (decompressSorted DPlain) = .ok [98, 98, 97, 97, 97] := by decide +kernel


end Esp
end Tdc
