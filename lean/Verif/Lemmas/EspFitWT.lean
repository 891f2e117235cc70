import Verif.Model.EspFitWT
import Verif.Lemmas.EspD
import Verif.Lemmas.EspWTDec

/-!
# DRangeFit with wavelet trees decodes what it encodes
-/

namespace Tdc
namespace Esp

/-! ## Maxima -/

theorem preMaxs_spec {B : Nat} : ∀ (l : List Nat) (mx : Nat), mx ≤ B → (∀ x ∈ l, x ≤ B) →
    List.Forall₂ (· ≤ ·) l (preMaxs mx l) ∧ Up mx (preMaxs mx l) ∧ ∀ y ∈ preMaxs mx l, y ≤ B
  | [], _, _, _ => ⟨.nil, trivial, by simp [preMaxs]⟩
  | x :: l, mx, hm, h => by
    have hx := h x (by simp)
    simp only [preMaxs]
    generalize hm' : (if x > mx then x else mx) = m
    have hmm : mx ≤ m ∧ x ≤ m ∧ m ≤ B := by subst hm'; split <;> omega
    obtain ⟨h1, h2, h3⟩ := preMaxs_spec l m hmm.2.2 (fun y hy => h y (by simp [hy]))
    refine ⟨.cons hmm.2.1 h1, ⟨hmm.1, h2⟩, ?_⟩
    intro y hy
    rcases List.mem_cons.1 hy with rfl | hy
    · exact hmm.2.2
    · exact h3 y hy

/-- a value that occurs, or the sentinel -/
def Rng (B x : Nat) : Prop := x ≤ B ∨ x = 2 ^ 64 - 1

theorem thrMaxs_spec {B : Nat} (hB : B < 2 ^ 64) (close : Nat → Nat → Bool) : ∀ (l : List Nat) (a : Nat), Up a l → (∀ x ∈ l, x ≤ B) →
    List.Forall₂ (· ≤ ·) l (thrMaxs close l).1 ∧ (∀ y ∈ (thrMaxs close l).1, Rng B y) ∧ Rng B (thrMaxs close l).2 ∧
      (a ≤ B → a ≤ (thrMaxs close l).2)
  | [], a, _, _ => ⟨.nil, by simp [thrMaxs], .inr rfl, by intro h; simp only [thrMaxs]; omega⟩
  | x :: l, a, hu, h => by
    have hx := h x (by simp)
    obtain ⟨h1, h2, h3, h4⟩ := thrMaxs_spec hB close l x hu.2 (fun y hy => h y (by simp [hy]))
    have h4 := h4 hx
    simp only [thrMaxs]
    generalize hm' : (if close x (thrMaxs close l).2 then (thrMaxs close l).2 else x) = m
    have hmm : x ≤ m ∧ Rng B m := by
      subst hm'
      split
      · exact ⟨h4, h3⟩
      · exact ⟨Nat.le_refl _, .inl hx⟩
    refine ⟨.cons hmm.1 h1, ?_, hmm.2, fun _ => Nat.le_trans hu.1 hmm.1⟩
    intro y hy
    rcases List.mem_cons.1 hy with rfl | hy
    · exact hmm.2
    · exact h2 y hy

theorem fitMaxs_spec (o : FitOpts) {B : Nat} (hB : B < 2 ^ 64) (l : List Nat) (h : ∀ x ∈ l, x ≤ B) :
    List.Forall₂ (· ≤ ·) l (fitMaxs o l) ∧ ∀ y ∈ fitMaxs o l, Rng B y := by
  obtain ⟨h1, h2, h3⟩ := preMaxs_spec l 0 (Nat.zero_le B) h
  unfold fitMaxs
  cases o.close with
  | none => exact ⟨h1, fun y hy => .inl (h3 y hy)⟩
  | some c =>
    obtain ⟨g1, g2, _, _⟩ := thrMaxs_spec hB c _ 0 h2 h3
    exact ⟨forall2_trans h1 g1, g2⟩

/-! ## Ranges -/

/-- a range is that of two values, or too large for a wavelet tree -/
def Rng' (B r : Nat) : Prop := r ≤ B ∨ 2 ^ 63 ≤ r

/-- the value is its minimum plus something in its range -/
def InR (x : Nat) (p : Nat × Nat) : Prop := p.1 ≤ x ∧ x - p.1 ≤ p.2

theorem rangesLoop_spec (zm : Bool) {B : Nat} (hB : B < 2 ^ 62) : ∀ (l maxs mins : List Nat) (lm last : Nat), List.Forall₂ (· ≤ ·) mins l →
    List.Forall₂ (· ≤ ·) l maxs → (∀ x ∈ l, x ≤ B) → (∀ y ∈ maxs, Rng B y) → Up last mins → (zm = true → lm = last) →
    List.Forall₂ InR l (rangesLoop zm lm maxs mins) ∧ Up last ((rangesLoop zm lm maxs mins).map Prod.fst) ∧
      ∀ p ∈ rangesLoop zm lm maxs mins, Rng' B p.2
  | [], _, _, _, _, h1, h2, _, _, _, _ => by
    cases h1; cases h2
    exact ⟨.nil, trivial, by simp [rangesLoop]⟩
  | x :: l, _, _, lm, last, h1, h2, hl, hr, hu, hz => by
    cases h1 with
    | @cons m _ mins _ hm hms =>
      cases h2 with
      | @cons _ mx _ maxs hx hxs =>
        have hxB := hl x (by simp)
        have hmx := hr mx (by simp)
        simp only [rangesLoop]
        generalize hm' : (if zm && decide (bitsFor (mx - m) = bitsFor (mx - 0)) && decide (lm = 0) then 0 else m) = m'
        have hm1 : last ≤ m' ∧ m' ≤ m := by
          subst hm'
          split
          · rename_i hc
            simp only [Bool.and_eq_true, decide_eq_true_eq] at hc
            have := hz hc.1.1
            omega
          · exact ⟨hu.1, Nat.le_refl _⟩
        obtain ⟨g1, g2, g3⟩ := rangesLoop_spec zm hB l maxs mins (if zm then m' else lm) m' hms hxs (fun y hy => hl y (by simp [hy]))
          (fun y hy => hr y (by simp [hy])) (hu.2.mono hm1.2) (by intro h; simp [h])
        refine ⟨.cons ⟨by simp only; omega, by simp only; omega⟩ g1, ?_, ?_⟩
        · simp only [List.map_cons]
          exact ⟨hm1.1, g2⟩
        · intro p hp
          rcases List.mem_cons.1 hp with rfl | hp
          · rcases hmx with h | h
            · exact .inl (by simp only; omega)
            · exact .inr (by simp only; omega)
          · exact g3 p hp

theorem smoothBack_spec {P : Nat → Prop} (h0 : P 0) (close : Nat → Nat → Bool) : ∀ (l : List Nat), (∀ x ∈ l, P x) →
    List.Forall₂ (· ≤ ·) l (smoothBack close l).1 ∧ (∀ y ∈ (smoothBack close l).1, P y) ∧ P (smoothBack close l).2
  | [], _ => ⟨.nil, by simp [smoothBack], h0⟩
  | x :: l, h => by
    have hx := h x (by simp)
    obtain ⟨h1, h2, h3⟩ := smoothBack_spec h0 close l (fun y hy => h y (by simp [hy]))
    simp only [smoothBack]
    generalize hm' : (if x < (smoothBack close l).2 then (if close x (smoothBack close l).2 then (smoothBack close l).2 else x) else x) = m
    have hmm : x ≤ m ∧ P m := by
      subst hm'
      split
      · split
        · exact ⟨by omega, h3⟩
        · exact ⟨Nat.le_refl _, hx⟩
      · exact ⟨Nat.le_refl _, hx⟩
    refine ⟨.cons hmm.1 h1, ?_, hmm.2⟩
    intro y hy
    rcases List.mem_cons.1 hy with rfl | hy
    · exact hmm.2
    · exact h2 y hy

theorem smoothFwd_spec {P : Nat → Prop} (close : Nat → Nat → Bool) : ∀ (l : List Nat) (last : Nat), P last → (∀ x ∈ l, P x) →
    List.Forall₂ (· ≤ ·) l (smoothFwd close last l) ∧ ∀ y ∈ smoothFwd close last l, P y
  | [], _, _, _ => ⟨.nil, by simp [smoothFwd]⟩
  | x :: l, last, h0, h => by
    have hx := h x (by simp)
    simp only [smoothFwd]
    generalize hm' : (if x < last then (if close x last then last else x) else x) = m
    have hmm : x ≤ m ∧ P m := by
      subst hm'
      split
      · split
        · exact ⟨by omega, h0⟩
        · exact ⟨Nat.le_refl _, hx⟩
      · exact ⟨Nat.le_refl _, hx⟩
    obtain ⟨h1, h2⟩ := smoothFwd_spec close l m hmm.2 (fun y hy => h y (by simp [hy]))
    refine ⟨.cons hmm.1 h1, ?_⟩
    intro y hy
    rcases List.mem_cons.1 hy with rfl | hy
    · exact hmm.2
    · exact h2 y hy

theorem smooth_spec {P : Nat → Prop} (h0 : P 0) (o : FitOpts) (l : List Nat) (h : ∀ x ∈ l, P x) :
    List.Forall₂ (· ≤ ·) l (smooth o l) ∧ ∀ y ∈ smooth o l, P y := by
  unfold smooth
  cases o.close with
  | none => exact ⟨List.forall₂_same.2 fun _ _ => Nat.le_refl _, h⟩
  | some c =>
    obtain ⟨h1, h2, _⟩ := smoothBack_spec h0 c l h
    obtain ⟨g1, g2⟩ := smoothFwd_spec c _ 0 h0 h2
    exact ⟨forall2_trans h1 g1, g2⟩

/-! ## Chunks -/

theorem runLen_le (r : Nat) : ∀ l : List Nat, runLen r l ≤ l.length
  | [] => Nat.le_refl _
  | x :: l => by
    simp only [runLen]
    split
    · have := runLen_le r l; simp; omega
    · omega

theorem runLen_take (r : Nat) : ∀ l : List Nat, ∀ x ∈ l.take (runLen r l), x = r
  | [] => by simp
  | x :: l => by
    simp only [runLen]
    split
    · rename_i h
      subst h
      intro y hy
      rw [List.take_succ_cons] at hy
      rcases List.mem_cons.1 hy with rfl | hy
      · rfl
      · exact runLen_take x l y hy
    · simp

theorem tnull_le (bv : List Bool) : tnull bv ≤ bv.length := by
  unfold tnull
  have := (List.takeWhile_prefix (fun b => !b) (l := bv.reverse)).length_le
  simpa using this

theorem tnull_split (bv : List Bool) : bv.take (bv.length - tnull bv) ++ List.replicate (tnull bv) false = bv := by
  have h1 := List.takeWhile_append_dropWhile (p := fun b => !b) (l := bv.reverse)
  have h2 : bv.reverse.takeWhile (fun b => !b) = List.replicate (tnull bv) false := by
    rw [List.eq_replicate_iff]
    refine ⟨rfl, ?_⟩
    intro b hb
    have := List.all_takeWhile (p := fun b => !b) (l := bv.reverse)
    have := List.all_eq_true.1 this b hb
    simpa using this
  rw [h2] at h1
  have h3 := congrArg List.reverse h1
  rw [List.reverse_append, List.reverse_reverse, List.reverse_replicate] at h3
  have h4 : bv.length = (bv.reverse.dropWhile (fun b => !b)).reverse.length + tnull bv := by
    have := congrArg List.length h3
    simp only [List.length_append, List.length_replicate] at this
    omega
  generalize (bv.reverse.dropWhile (fun b => !b)).reverse = p at *
  have : bv.take (bv.length - tnull bv) = p := by
    rw [show bv.length - tnull bv = p.length by omega]
    conv_lhs => rw [← h3]
    rw [List.take_left']
    rfl
  rw [this, h3]

theorem rdTrim_ok {n : Nat} (hn : n < 2 ^ 62) (bv rest : List Bool) (h : bv.length = n) : rdTrim n (writeTrim n bv ++ rest) = .ok (bv, rest) := by
  subst h
  have h1 := tnull_le bv
  have h2 := (bitsFor_exact bv.length _ (by omega)).1 (Nat.le_refl _)
  unfold rdTrim writeTrim
  rw [List.append_assoc, rdInt_writeInt 64 _ _ _ (by omega) (by omega)]
  simp only
  rw [if_neg (by omega)]
  have := rdBitList_ok (bv.take (bv.length - tnull bv)) rest
  rw [List.length_take, Nat.min_eq_left (by omega)] at this
  rw [this]
  simp only
  rw [tnull_split]

theorem rdTrims_ok {n : Nat} (hn : n < 2 ^ 62) : ∀ (bvs : List (List Bool)) (rest : List Bool), (∀ bv ∈ bvs, bv.length = n) →
    rdTrims n bvs.length (bvs.flatMap (writeTrim n) ++ rest) = .ok (bvs, rest)
  | [], rest, _ => rfl
  | bv :: bvs, rest, h => by
    rw [List.length_cons, rdTrims, List.flatMap_cons, List.append_assoc, rdTrim_ok hn bv _ (h bv (by simp))]
    simp only [Except.bind]
    rw [rdTrims_ok hn bvs rest (fun b hb => h b (by simp [hb]))]

theorem fitLevels_eq {r : Nat} (h : r < 2 ^ 62) : fitLevels r = wtDepth r := by
  unfold fitLevels
  by_cases h0 : r = 0
  · subst h0
    rw [wtDepth]
    decide
  · rw [if_neg h0]
    obtain ⟨d1, d2⟩ := wtDepth_spec r
    have hd : 1 ≤ wtDepth r := by
      rcases Nat.eq_zero_or_pos (wtDepth r) with hz | hz
      · rw [hz] at d1; simp at d1; omega
      · exact hz
    have e1 := (bitsFor_exact r _ (by omega)).1 (Nat.le_refl _)
    have e2 := (bitsFor_exact r (wtDepth r) (by omega)).2 ⟨hd, d1⟩
    have e3 := d2 _ e1.2
    omega

/-- A wavelet tree has fewer than 31 levels. -/
theorem makeWt_lt {v : List Nat} {mx : Nat} {bvs : List (List Bool)} (h : makeWt v mx = .ok bvs) : mx < 2 ^ 30 := by
  unfold makeWt at h
  obtain ⟨d1, _⟩ := wtDepth_spec mx
  simp only at h
  by_cases h0 : wtDepth mx = 0
  · rw [h0] at d1; omega
  · rw [if_neg h0] at h
    unfold wtPc at h
    by_cases h31 : 31 ≤ wtDepth mx
    · rw [if_pos h31] at h; cases h
    · have : (2 : Nat) ^ wtDepth mx ≤ 2 ^ 30 := Nat.pow_le_pow_right (by omega) (by omega)
      omega

theorem wtChunks_lt : ∀ (fuel : Nat) (ranges diffs : List Nat) (bits : List Bool), wtChunks fuel ranges diffs = .ok bits → ∀ r ∈ ranges, r < 2 ^ 30
  | _, [], _, _, _ => by simp
  | 0, _ :: _, _, _, h => by simp [wtChunks] at h
  | fuel + 1, r :: ranges, diffs, bits, h => by
    rw [wtChunks] at h
    cases e1 : makeWt (diffs.take (runLen r ranges + 1)) r with
    | error e => rw [e1] at h; cases h
    | ok bvs =>
      rw [e1] at h
      simp only [Except.bind] at h
      cases e2 : wtChunks fuel (ranges.drop (runLen r ranges + 1 - 1)) (diffs.drop (runLen r ranges + 1)) with
      | error e => rw [e2] at h; cases h
      | ok b2 =>
        have hr := makeWt_lt e1
        have ih := wtChunks_lt fuel _ _ _ e2
        intro x hx
        rcases List.mem_cons.1 hx with rfl | hx
        · exact hr
        · rw [← List.take_append_drop (runLen r ranges) ranges] at hx
          rcases List.mem_append.1 hx with hx | hx
          · rw [runLen_take r ranges x hx]; exact hr
          · exact ih x (by rwa [Nat.add_sub_cancel])

theorem forall2_split {R : Nat → Nat → Prop} {a b : List Nat} (h : List.Forall₂ R a b) (k : Nat) :
    List.Forall₂ R (a.take k) (b.take k) ∧ List.Forall₂ R (a.drop k) (b.drop k) := ⟨List.forall₂_take k h, List.forall₂_drop k h⟩

theorem forall2_const {r : Nat} : ∀ {a b : List Nat}, List.Forall₂ (· ≤ ·) a b → (∀ x ∈ b, x = r) → ∀ x ∈ a, x ≤ r
  | _, _, .nil, _ => by simp
  | _, _, .cons h hs, hb => by
    intro x hx
    rcases List.mem_cons.1 hx with rfl | hx
    · have := hb _ (List.mem_cons_self ..); omega
    · exact forall2_const hs (fun y hy => hb y (by simp [hy])) x hx

theorem chunk_take (r : Nat) (ranges : List Nat) : ∀ x ∈ (r :: ranges).take (runLen r ranges + 1), x = r := by
  intro x hx
  rw [List.take_succ_cons] at hx
  rcases List.mem_cons.1 hx with rfl | hx
  · rfl
  · exact runLen_take r ranges x hx

theorem chunk_wt {r : Nat} {ranges diffs : List Nat} (hd : List.Forall₂ (· ≤ ·) diffs (r :: ranges)) (hr : r < 2 ^ 30) :
    ∃ bvs, makeWt (diffs.take (runLen r ranges + 1)) r = .ok bvs ∧ WtOk (diffs.take (runLen r ranges + 1)) (wtDepth r) bvs ∧
      (diffs.take (runLen r ranges + 1)).length = runLen r ranges + 1 ∧ ∀ x ∈ diffs.take (runLen r ranges + 1), x ≤ r := by
  have h1 := forall2_const (forall2_split hd (runLen r ranges + 1)).1 (chunk_take r ranges)
  have hlen := hd.length_eq
  have hle := runLen_le r ranges
  simp only [List.length_cons] at hlen
  obtain ⟨bvs, e1, e2⟩ := makeWt_ok _ r hr h1
  exact ⟨bvs, e1, e2, by rw [List.length_take]; omega, h1⟩

theorem wtChunks_total : ∀ (fuel : Nat) (ranges diffs : List Nat), ranges.length ≤ fuel → List.Forall₂ (· ≤ ·) diffs ranges → (∀ r ∈ ranges, r < 2 ^ 30) →
    ∃ bits, wtChunks fuel ranges diffs = .ok bits
  | _, [], _, _, _, _ => ⟨[], by simp [wtChunks]⟩
  | 0, _ :: _, _, h, _, _ => by simp at h
  | fuel + 1, r :: ranges, diffs, hf, hd, hr => by
    obtain ⟨bvs, e1, _⟩ := chunk_wt hd (hr r (by simp))
    have hsp := (forall2_split hd (runLen r ranges + 1)).2
    rw [List.drop_succ_cons] at hsp
    obtain ⟨b, e2⟩ := wtChunks_total fuel (ranges.drop (runLen r ranges)) (diffs.drop (runLen r ranges + 1)) (by simp at hf ⊢; omega) hsp
      (fun x hx => hr x (by simp [List.mem_of_mem_drop hx]))
    refine ⟨bvs.flatMap (writeTrim (runLen r ranges + 1)) ++ b, ?_⟩
    rw [wtChunks]
    rw [e1]
    simp only [Except.bind, Nat.add_sub_cancel]
    rw [e2]

theorem zip_back : ∀ {l mins : List Nat}, List.Forall₂ (· ≤ ·) mins l → (∀ x ∈ l, x < 2 ^ 64) →
    List.zipWith (fun v m => (v + m) % 2 ^ 64) (List.zipWith (· - ·) l mins) mins = l
  | _, _, .nil, _ => rfl
  | x :: l, m :: mins, .cons h hs, hl => by
    have hx := hl x (by simp)
    simp only [List.zipWith_cons_cons]
    rw [zip_back hs (fun y hy => hl y (by simp [hy])), show x - m + m = x by omega, Nat.mod_eq_of_lt hx]

theorem rdChunks_ok : ∀ (fuel : Nat) (ranges l mins : List Nat) (bits rest : List Bool), ranges.length ≤ fuel → ranges.length < 2 ^ 62 → List.Forall₂ (· ≤ ·) mins l →
    List.Forall₂ (· ≤ ·) (List.zipWith (· - ·) l mins) ranges → (∀ x ∈ l, x < 2 ^ 64) → wtChunks fuel ranges (List.zipWith (· - ·) l mins) = .ok bits →
    rdChunks fuel ranges mins (bits ++ rest) = .ok (l, rest)
  | fuel, [], l, mins, bits, rest, _, _, hm, hd, _, he => by
    have e1 : bits = [] := by cases fuel <;> simpa [wtChunks] using he.symm
    subst e1
    have h1 := hm.length_eq
    have h2 := hd.length_eq
    rw [List.length_zipWith] at h2
    have : l = [] := List.length_eq_zero_iff.1 (by rw [List.length_nil] at h2; omega)
    subst this
    cases fuel <;> simp [rdChunks]
  | 0, _ :: _, _, _, _, _, h, _, _, _, _, _ => by simp at h
  | fuel + 1, r :: ranges, l, mins, bits, rest, hf, hn, hm, hd, hl, he => by
    have hr := wtChunks_lt _ _ _ _ he r (by simp)
    obtain ⟨bvs, e1, e2, e3, e4⟩ := chunk_wt hd hr
    have hle := runLen_le r ranges
    rw [wtChunks] at he
    rw [e1] at he
    simp only [Except.bind, Nat.add_sub_cancel] at he
    have hlm := hm.length_eq
    generalize hk : runLen r ranges + 1 = k at *
    cases e5 : wtChunks fuel (ranges.drop (runLen r ranges)) ((List.zipWith (· - ·) l mins).drop k) with
    | error e => rw [e5] at he; cases he
    | ok b2 =>
      rw [e5] at he
      simp only [Except.ok.injEq] at he
      subst he
      have hsp := (forall2_split hd k).2
      rw [← hk, List.drop_succ_cons, hk, List.drop_zipWith] at hsp
      rw [List.drop_zipWith] at e5
      have ih := rdChunks_ok fuel (ranges.drop (runLen r ranges)) (l.drop k) (mins.drop k) b2 rest (by simp at hf ⊢; omega)
        (by simp at hn ⊢; omega) (forall2_split hm k).2 hsp (fun x hx => hl x (List.mem_of_mem_drop hx)) e5
      have hlen : ∀ bv ∈ bvs, bv.length = k := by
        intro bv hb
        obtain ⟨d, hd⟩ := List.getElem?_of_mem hb
        obtain ⟨bv', h1, h2, _⟩ := e2.2 d (by rw [← e2.1]; exact (List.getElem?_eq_some_iff.1 hd).1)
        rw [hd] at h1
        simp only [Option.some.injEq] at h1
        rw [h1, h2, e3]
      have t := rdTrims_ok (n := k) (by simp at hn; omega) bvs (b2 ++ rest) hlen
      rw [e2.1, ← fitLevels_eq (by omega)] at t
      have hrec := recoverDxx_ok e2 (fun x hx => by have := e4 x hx; have := (wtDepth_spec r).1; omega)
      rw [e3] at hrec
      rw [rdChunks]
      rw [hk, List.append_assoc, t]
      simp only [Except.bind]
      rw [hrec]
      simp only
      rw [if_neg (by omega), ← hk, Nat.add_sub_cancel, hk, ih]
      simp only
      rw [List.take_take, Nat.min_self, List.take_zipWith, zip_back (forall2_split hm k).1 (fun x hx => hl x (List.mem_of_mem_take hx)), List.take_append_drop]

/-! ## The coder -/

theorem forall2_inr : ∀ {l : List Nat} {mr : List (Nat × Nat)}, List.Forall₂ InR l mr → List.Forall₂ (· ≤ ·) (mr.map Prod.fst) l ∧
    List.Forall₂ (· ≤ ·) (List.zipWith (· - ·) l (mr.map Prod.fst)) (mr.map Prod.snd)
  | _, _, .nil => ⟨.nil, .nil⟩
  | _, _, .cons h hs => by
    obtain ⟨h1, h2⟩ := forall2_inr hs
    exact ⟨.cons h.1 h1, .cons h.2 h2⟩

/-- What the encoder has computed before it writes. -/
theorem fitWt_prep (o : FitOpts) {B : Nat} (hB : B < 2 ^ 62) (l : List Nat) (h : ∀ x ∈ l, x ≤ B) :
    let mr := rangesLoop o.zeroMin 0 (fitMaxs o l) (fitMins o l)
    List.Forall₂ (· ≤ ·) (mr.map Prod.fst) l ∧ Up 0 (mr.map Prod.fst) ∧
      List.Forall₂ (· ≤ ·) (List.zipWith (· - ·) l (mr.map Prod.fst)) (smooth o (mr.map Prod.snd)) ∧ (∀ r ∈ smooth o (mr.map Prod.snd), Rng' B r) ∧
        (o.close = none → ∀ r ∈ smooth o (mr.map Prod.snd), r ≤ B) := by
  intro mr
  have hm := fitMins_spec o l
  obtain ⟨x1, x2⟩ := fitMaxs_spec o (B := B) (by omega) l h
  obtain ⟨g1, g2, g3⟩ := rangesLoop_spec o.zeroMin hB l (fitMaxs o l) (fitMins o l) 0 0 hm.1 x1 h x2 hm.2 (by simp)
  obtain ⟨f1, f2⟩ := forall2_inr g1
  obtain ⟨s1, s2⟩ := smooth_spec (P := Rng' B) (.inl (Nat.zero_le B)) o (mr.map Prod.snd) (fun x hx => by
    obtain ⟨p, hp, rfl⟩ := List.mem_map.1 hx
    exact g3 p hp)
  refine ⟨f1, g2, forall2_trans f2 s1, s2, ?_⟩
  intro hc
  have hr : ∀ (lm : Nat) (a b : List Nat), (∀ y ∈ a, y ≤ B) → ∀ p ∈ rangesLoop o.zeroMin lm a b, p.2 ≤ B := by
    intro lm a
    induction a generalizing lm with
    | nil => intro b _; simp [rangesLoop]
    | cons y a ih =>
      intro b hb
      cases b with
      | nil => simp [rangesLoop]
      | cons m b =>
        simp only [rangesLoop]
        intro p hp
        rcases List.mem_cons.1 hp with rfl | hp
        · have := hb y (by simp)
          simp only
          omega
        · exact ih _ b (fun z hz => hb z (by simp [hz])) p hp
  have hmx : ∀ y ∈ fitMaxs o l, y ≤ B := by
    unfold fitMaxs
    rw [hc]
    exact (preMaxs_spec l 0 (Nat.zero_le B) h).2.2
  unfold smooth
  rw [hc]
  intro r hr'
  obtain ⟨p, hp, rfl⟩ := List.mem_map.1 hr'
  exact hr 0 _ _ hmx p hp

theorem fitWt_sound (o : FitOpts) (N : Nat) : (DRangeFitWT o).SoundRhs N := by
  intro w mx l bits rest h1 h2 h3 _ _ h6 he
  have hle : (2 : Nat) ^ w ≤ 2 ^ 62 := Nat.pow_le_pow_right (by omega) (by omega)
  obtain ⟨p1, p2, p3, p4, _⟩ := fitWt_prep o (B := mx) (by omega) l h1
  simp only [DRangeFitWT, fitWtEnc, fitWtDec] at he ⊢
  generalize (rangesLoop o.zeroMin 0 (fitMaxs o l) (fitMins o l)).map Prod.fst = mins at *
  generalize smooth o ((rangesLoop o.zeroMin 0 (fitMaxs o l) (fitMins o l)).map Prod.snd) = ranges at *
  have l1 := p1.length_eq
  have l2 := p3.length_eq
  rw [List.length_zipWith] at l2
  cases e1 : encUD w w false mins with
  | error e => rw [e1] at he; cases he
  | ok b1 =>
    cases e2 : encUD w w true ranges with
    | error e => rw [e1, e2] at he; cases he
    | ok b2 =>
      cases e3 : wtChunks ranges.length ranges (List.zipWith (· - ·) l mins) with
      | error e => rw [e1, e2] at he; simp only [Except.bind, e3] at he; cases he
      | ok b3 =>
        rw [e1, e2] at he
        simp only [Except.bind, e3, Except.ok.injEq] at he
        subst he
        have hr := wtChunks_lt _ _ _ _ e3
        have d1 := encUD_sound (vw := 64) (by omega) (by omega) (by omega) (b2 ++ (b3 ++ rest)) (fun x hx => by
          have := forall2_le_bound (B := mx + 1) p1 (fun y hy => by have := h1 y hy; omega) x hx
          omega) (by omega) (fun _ => p2) e1
        have d2 := encUD_sound (vw := 64) (by omega) (by omega) (by omega) (b3 ++ rest) (fun x hx => by
          have a := hr x hx
          rcases p4 x hx with h | h <;> omega) (by omega) (by simp) e2
        rw [l1] at d1
        rw [show ranges.length = l.length by omega] at d2
        rw [List.append_assoc, List.append_assoc, d1]
        simp only [Except.bind]
        rw [d2]
        simp only
        exact rdChunks_ok _ ranges l mins b3 rest (Nat.le_refl _) (by omega) p1 p3 (fun x hx => by have := h1 x hx; omega) e3

/-- When the coder fails, without a threshold and for values below `2^30`: exactly if the minima are not all 0 and unary coding is predicted to be no longer
than binary coding. -/
theorem fitWt_check {o : FitOpts} (ho : o.close = none) {w mx : Nat} {l : List Nat} (h : ∀ x ∈ l, x ≤ mx) (hmx : mx < 2 ^ 30) :
    (∀ bits, (DRangeFitWT o).enc w mx l ≠ .ok bits) ↔
    udBitsUnary ((rangesLoop o.zeroMin 0 (fitMaxs o l) (fitMins o l)).map Prod.fst) ≤
        udBitsBinary w w ((rangesLoop o.zeroMin 0 (fitMaxs o l) (fitMins o l)).map Prod.fst) ∧
      udSignCount ((rangesLoop o.zeroMin 0 (fitMaxs o l) (fitMins o l)).map Prod.fst) ≠ 0 := by
  obtain ⟨p1, p2, p3, p4, p5⟩ := fitWt_prep o (B := mx) (by omega) l h
  simp only [DRangeFitWT, fitWtEnc]
  generalize (rangesLoop o.zeroMin 0 (fitMaxs o l) (fitMins o l)).map Prod.fst = mins at *
  generalize smooth o ((rangesLoop o.zeroMin 0 (fitMaxs o l) (fitMins o l)).map Prod.snd) = ranges at *
  obtain ⟨b2, e2⟩ := encUD_total w w ranges
  obtain ⟨b3, e3⟩ := wtChunks_total _ ranges _ (Nat.le_refl _) p3 (fun r hr => by have := p5 ho r hr; omega)
  rcases encUD_cases w w false mins with ⟨b1, hb⟩ | hb
  · simp only [hb, e2, e3, Except.bind]
    constructor
    · intro hc; exact absurd rfl (hc _)
    · intro hc
      have := (encUD_check w w false _).2 ⟨rfl, hc⟩
      rw [this] at hb; cases hb
  · simp only [hb, Except.bind]
    have := (encUD_check w w false _).1 hb
    simp [this.2]

/-! ## A threshold of 200 percent or more -/

theorem thrMins_zero {c : Nat → Nat → Bool} (hc : ∀ a b, ¬ (a = 0 ∧ b = 0) → c a b = true) : ∀ l : List Nat, ∀ x ∈ thrMins c 0 l, x = 0
  | [] => by simp [thrMins]
  | x :: l => by
    simp only [thrMins]
    have h : (if c x 0 then 0 else x) = 0 := by
      by_cases h0 : x = 0
      · subst h0; simp
      · rw [hc x 0 (by omega), if_pos rfl]
    rw [h]
    intro y hy
    rcases List.mem_cons.1 hy with rfl | hy
    · rfl
    · exact thrMins_zero hc l y hy

theorem thrMaxs_top {c : Nat → Nat → Bool} (hc : ∀ a b, ¬ (a = 0 ∧ b = 0) → c a b = true) : ∀ l : List Nat,
    (∀ x ∈ (thrMaxs c l).1, x = 2 ^ 64 - 1) ∧ (thrMaxs c l).2 = 2 ^ 64 - 1
  | [] => by simp [thrMaxs]
  | x :: l => by
    obtain ⟨h1, h2⟩ := thrMaxs_top hc l
    simp only [thrMaxs]
    rw [h2, hc x _ (by omega), if_pos rfl]
    refine ⟨?_, rfl⟩
    intro y hy
    rcases List.mem_cons.1 hy with rfl | hy
    · rfl
    · exact h1 y hy

theorem encUD_zeros (w : Nat) {l : List Nat} (h : ∀ x ∈ l, x = 0) : ∃ bits, encUD w w false l = .ok bits := by
  rcases encUD_cases w w false l with h1 | h1
  · exact h1
  · have := ((encUD_check w w false l).1 h1).2.2
    exfalso
    apply this
    have hz : ∀ l : List Nat, (∀ x ∈ l, x = 0) → absDiffs 0 l = l.map fun _ => 0 := by
      intro l
      induction l with
      | nil => intro _; rfl
      | cons x l ih =>
        intro h
        have hx := h x (by simp)
        subst hx
        simp only [absDiffs, ih (fun y hy => h y (by simp [hy])), List.map_cons, Nat.sub_self, ite_self]
    rw [udSignCount, hz l h, List.countP_eq_zero]
    simp

theorem fitWt_top {c : Nat → Nat → Bool} (hc : ∀ a b, ¬ (a = 0 ∧ b = 0) → c a b = true) (zm : Bool) (w mx : Nat) {l : List Nat} (hl : l ≠ []) :
    (DRangeFitWT ⟨some c, zm⟩).enc w mx l = .error .ub := by
  obtain ⟨x, l, rfl⟩ := List.exists_cons_of_ne_nil hl
  simp only [DRangeFitWT, fitWtEnc]
  have h1 : ∀ y ∈ fitMins ⟨some c, zm⟩ (x :: l), y = 0 := thrMins_zero hc _
  have h2 : ∀ y ∈ fitMaxs ⟨some c, zm⟩ (x :: l), y = 2 ^ 64 - 1 := (thrMaxs_top hc _).1
  have e1 : (fitMins ⟨some c, zm⟩ (x :: l)).length = l.length + 1 := (fitMins_spec ⟨some c, zm⟩ (x :: l)).1.length_eq
  have e2 : ∃ m ms, fitMaxs ⟨some c, zm⟩ (x :: l) = m :: ms := by
    simp only [fitMaxs, preMaxs, thrMaxs]
    exact ⟨_, _, rfl⟩
  obtain ⟨m, ms, e2⟩ := e2
  obtain ⟨n, ns, e1⟩ : ∃ n ns, fitMins ⟨some c, zm⟩ (x :: l) = n :: ns := by
    cases h : fitMins ⟨some c, zm⟩ (x :: l) with
    | nil => rw [h] at e1; simp at e1
    | cons n ns => exact ⟨n, ns, rfl⟩
  have hz : ∀ (lm : Nat) (a b : List Nat), (∀ y ∈ b, y = 0) → ∀ y ∈ (rangesLoop zm lm a b).map Prod.fst, y = 0 := by
    intro lm a
    induction a generalizing lm with
    | nil => intro b _; simp [rangesLoop]
    | cons y a ih =>
      intro b hb
      cases b with
      | nil => simp [rangesLoop]
      | cons k b =>
        simp only [rangesLoop, List.map_cons]
        intro z hz
        rcases List.mem_cons.1 hz with rfl | hz
        · have := hb k (by simp)
          split <;> omega
        · exact ih _ b (fun z hz => hb z (by simp [hz])) z hz
  obtain ⟨b1, f1⟩ := encUD_zeros w (hz 0 (fitMaxs ⟨some c, zm⟩ (x :: l)) _ h1)
  obtain ⟨b2, f2⟩ := encUD_total w w (smooth ⟨some c, zm⟩ ((rangesLoop zm 0 (fitMaxs ⟨some c, zm⟩ (x :: l)) (fitMins ⟨some c, zm⟩ (x :: l))).map Prod.snd))
  rw [f1]
  simp only [Except.bind]
  rw [f2]
  simp only
  have hn := h1 n (by rw [e1]; simp)
  have hm := h2 m (by rw [e2]; simp)
  obtain ⟨s1, _⟩ := smooth_spec (P := fun _ => True) trivial ⟨some c, zm⟩ ((rangesLoop zm 0 (fitMaxs ⟨some c, zm⟩ (x :: l)) (fitMins ⟨some c, zm⟩ (x :: l))).map Prod.snd) (by simp)
  generalize hs : smooth ⟨some c, zm⟩ ((rangesLoop zm 0 (fitMaxs ⟨some c, zm⟩ (x :: l)) (fitMins ⟨some c, zm⟩ (x :: l))).map Prod.snd) = sm at *
  have hh : ∃ r rs, sm = r :: rs ∧ 2 ^ 30 ≤ r := by
    rw [e1, e2] at s1
    simp only [rangesLoop, List.map_cons] at s1
    cases s1 with
    | @cons _ r _ rs h _ =>
      refine ⟨r, rs, rfl, ?_⟩
      rw [hn, ite_self] at h
      omega
  obtain ⟨r, rs, rfl, hr⟩ := hh
  rw [List.length_cons, wtChunks]
  have hwt : ∀ v, makeWt v r = .error .ub := by
    intro v
    unfold makeWt
    have d1 := (wtDepth_spec r).1
    have d2 : 31 ≤ wtDepth r := by
      by_contra hlt
      have : (2 : Nat) ^ wtDepth r ≤ 2 ^ 30 := Nat.pow_le_pow_right (by omega) (by omega)
      omega
    simp only
    rw [if_neg (by omega), wtPc, if_pos d2]
    rfl
  rw [hwt]
  rfl

end Esp
end Tdc
