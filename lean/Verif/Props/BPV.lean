import Verif.Lemmas.BPV

/-!
# Property C37: `BitPackingVector` behaves like a vector of `w`-bit integers

The specification is a width and a list of numbers (`VSpec`); an operation on it is the obvious list operation (`Op.spec`).
-/

namespace Tdc
namespace BPV

/-- A vector of integers of `w` bits. -/
structure VSpec where
  w : Nat
  l : List Nat

/-- The modifying operations. -/
inductive Op where
  | push (v : Nat)
  | pop
  | set (i v : Nat)
  | resize (n : Nat)
  | resizeV (n v : Nat)
  | resizeW (n v w : Nat)
  | width (w : Nat)
  | insert (p n v : Nat)
  | insertL (p : Nat) (vs : List Nat)
  | erase (a b : Nat)
  | clear
  | assign (n v : Nat)

/-- What each operation means on a list. -/
def Op.spec (fixed : Bool) (s : VSpec) : Op → VSpec
  | .push v => { s with l := s.l ++ [v % 2 ^ s.w] }
  | .pop => { s with l := s.l.dropLast }
  | .set i v => { s with l := s.l.set i (v % 2 ^ s.w) }
  | .resize n => { s with l := s.l.take n ++ List.replicate (n - s.l.length) 0 }
  | .resizeV n v => { s with l := s.l.take n ++ List.replicate (n - s.l.length) (v % 2 ^ s.w) }
  | .resizeW n v w => { w := w, l := (s.l.take n ++ List.replicate (n - s.l.length) v).map (· % 2 ^ w) }
  | .width w => { w := w, l := s.l.map (· % 2 ^ w) }
  | .insert p n v => { s with l := s.l.take p ++ List.replicate n (v % 2 ^ s.w) ++ s.l.drop p }
  | .insertL p vs => { s with l := s.l.take p ++ vs.map (· % 2 ^ s.w) ++ s.l.drop p }
  | .erase a b => { s with l := s.l.take a ++ s.l.drop b }
  | .clear => { s with l := [] }
  | .assign n v => { w := if fixed then s.w else 64, l := List.replicate n (v % 2 ^ (if fixed then s.w else 64)) }

/-- The documented preconditions: positions exist, and widths are 1 to 64 and only changed on dynamic vectors. -/
def Op.allowed (fixed : Bool) (s : VSpec) : Op → Prop
  | .pop => s.l ≠ []
  | .set i _ => i < s.l.length
  | .resizeW _ _ w => fixed = false ∧ 1 ≤ w ∧ w ≤ 64
  | .width w => fixed = false ∧ 1 ≤ w ∧ w ≤ 64
  | .insert p _ _ => p ≤ s.l.length
  | .insertL p _ => p ≤ s.l.length
  | .erase a b => a ≤ b ∧ b ≤ s.l.length
  | _ => True

/-- The cases in which the code does not do it: growing with `resize(n)`, and `resize(n, val, w)` to another size at the same width. -/
def Op.sound (s : VSpec) : Op → Prop
  | .resize n => n ≤ s.l.length
  | .resizeW n _ w => w = s.w → n = s.l.length
  | _ => True

/-- The operation of the code. -/
def Op.exec (s : Vec) : Op → Res Vec
  | .push v => s.push v
  | .pop => s.pop
  | .set i v => s.set i v
  | .resize n => .ok (s.resize n)
  | .resizeV n v => s.resizeV n v
  | .resizeW n v w => s.resizeW n v w
  | .width w => s.width w
  | .insert p n v => s.insertN p n v
  | .insertL p vs => s.insertL p vs
  | .erase a b => s.erase a b
  | .clear => .ok s.clear
  | .assign n v => s.assign n v

/-- The vector is the list, and uses as few words as possible. -/
structure Rel (s : Vec) (t : VSpec) : Prop where
  w : s.w = t.w
  w1 : 1 ≤ t.w
  w64 : t.w ≤ 64
  size : s.size = t.l.length
  mem : s.mem.length = 64 * words (t.l.length * t.w)
  els : ∀ i, i < t.l.length → t.l[i]? = some (el s.mem t.w i)

theorem Rel.fits {s : Vec} {t : VSpec} (r : Rel s t) : t.l.length * t.w ≤ s.mem.length := by
  rw [r.mem]; exact (words_mul _).1

theorem rel_mk0 (fixed : Option Nat) (h : ∀ w, fixed = some w → 1 ≤ w ∧ w ≤ 64) : Rel (Vec.mk0 fixed) ⟨fixed.getD 64, []⟩ := by
  have : 1 ≤ fixed.getD 64 ∧ fixed.getD 64 ≤ 64 := by
    cases fixed with
    | none => simp
    | some w => exact h w rfl
  exact ⟨rfl, this.1, this.2, rfl, by simp [Vec.mk0, words], fun i hi => by simp at hi⟩

theorem rel_set {s : Vec} {t : VSpec} (r : Rel s t) {i v : Nat} (hi : i < t.l.length) : ∃ s', s.set i v = .ok s' ∧ s'.fixed = s.fixed ∧
    Rel s' { t with l := t.l.set i (v % 2 ^ t.w) } := by
  obtain ⟨m, e, l, g⟩ := wrEl v hi r.fits
  refine ⟨{ s with mem := m }, by rw [Vec.set, r.w, e], rfl, r.w, r.w1, r.w64, by simp [r.size], by simp [l, r.mem], fun j hj => ?_⟩
  simp only [List.length_set] at hj
  show (t.l.set i (v % 2 ^ t.w))[j]? = some (el m t.w j)
  rw [g, List.getElem?_set]
  by_cases h : j = i
  · rw [if_pos h.symm, if_pos h, if_pos hi]
  · rw [if_neg (Ne.symm h), if_neg h, r.els j hj]

theorem rel_push {s : Vec} {t : VSpec} (r : Rel s t) (v : Nat) : ∃ s', s.push v = .ok s' ∧ s'.fixed = s.fixed ∧ Rel s' { t with l := t.l ++ [v % 2 ^ t.w] } := by
  have hb := words_mul (t.l.length * t.w)
  have hb2 := words_mul ((t.l.length + 1) * t.w)
  have hs : (t.l.length + 1) * t.w = t.l.length * t.w + t.w := Nat.succ_mul _ _
  have := r.w1
  have := r.w64
  have hm := r.mem
  obtain ⟨x, e, h1, ⟨k, hk⟩, h2, h3⟩ := pushWords_eq ((t.l.length + 1) * t.w) ((t.l.length + 1) * t.w) s.mem (by omega)
  have hlen : (s.mem ++ x).length = 64 * words ((t.l.length + 1) * t.w) := by
    have : (s.mem ++ x).length = 64 * (words (t.l.length * t.w) + k) := by rw [List.length_append, hm, hk]; omega
    rw [this]
    congr 1
    symm
    apply words_unique
    · omega
    · by_cases hle : (t.l.length + 1) * t.w ≤ s.mem.length
      · have := h2 hle
        rw [this] at hk
        simp only [List.length_nil] at hk
        omega
      · have := h3 (by omega)
        omega
  obtain ⟨m, e2, l2, g2⟩ := wrEl v (show t.l.length < t.l.length + 1 by omega) h1
  refine ⟨{ s with size := s.size + 1, mem := m }, ?_, rfl, r.w, r.w1, r.w64, by simp [r.size], ?_, fun j hj => ?_⟩
  · unfold Vec.push Vec.set
    dsimp only
    rw [r.w, r.size, e, e2]
  · show m.length = 64 * words ((t.l ++ [v % 2 ^ t.w]).length * t.w)
    rw [l2, hlen]; simp
  · simp only [List.length_append, List.length_singleton] at hj
    show (t.l ++ [v % 2 ^ t.w])[j]? = some (el m t.w j)
    rw [g2]
    by_cases h : j = t.l.length
    · rw [if_pos h, h]; simp
    · rw [if_neg h, List.getElem?_append_left (by omega), r.els j (by omega)]
      congr 1
      exact (valAt_append (Nat.le_trans (fit (show j < t.l.length by omega)) r.fits)).symm

theorem rel_shrink {s : Vec} {t : VSpec} (r : Rel s t) {n : Nat} (hn : n ≤ t.l.length) (f : List Bool) (hf : f = s.mem.take (64 * words (n * t.w))) :
    Rel { s with size := n, mem := f } { t with l := t.l.take n } := by
  have hw := words_mono (Nat.mul_le_mul_right t.w hn)
  have hm := r.mem
  refine ⟨r.w, r.w1, r.w64, by simp; omega, ?_, fun j hj => ?_⟩
  · show f.length = 64 * words ((t.l.take n).length * t.w)
    rw [hf]; simp only [List.length_take]; rw [Nat.min_eq_left hn]; omega
  · simp only [List.length_take] at hj
    show (t.l.take n)[j]? = some (el f t.w j)
    rw [List.getElem?_take, if_pos (by omega), r.els j (by omega), hf]
    congr 1
    exact (valAt_take (Nat.le_trans (fit (show j < n by omega)) (words_mul _).1)).symm

theorem rel_pop {s : Vec} {t : VSpec} (r : Rel s t) (h : t.l ≠ []) : ∃ s', s.pop = .ok s' ∧ s'.fixed = s.fixed ∧ Rel s' { t with l := t.l.dropLast } := by
  have hl : 0 < t.l.length := List.length_pos_iff.2 h
  have hw := words_mono (Nat.mul_le_mul_right t.w (show t.l.length - 1 ≤ t.l.length by omega))
  have hm := r.mem
  refine ⟨{ s with size := s.size - 1, mem := popWords ((s.size - 1) * s.w) s.mem.length s.mem }, if_neg (by rw [r.size]; omega), rfl, ?_⟩
  · rw [List.dropLast_eq_take]
    have hp := popWords_eq ((t.l.length - 1) * t.w) s.mem.length s.mem ⟨_, r.mem⟩ (by omega) (by omega)
    have := rel_shrink r (show t.l.length - 1 ≤ t.l.length by omega) _ hp
    rw [← r.w, ← r.size] at this
    rw [← r.size]
    rw [r.w] at this ⊢
    exact this

theorem rel_resize_grow {s : Vec} {t : VSpec} (r : Rel s t) {n : Nat} (hn : t.l.length ≤ n) :
    (s.resize n).mem.length = 64 * words (n * t.w) ∧ ∀ j, j < t.l.length → el (s.resize n).mem t.w j = el s.mem t.w j := by
  have hw := words_mono (Nat.mul_le_mul_right t.w hn)
  have hm := r.mem
  have hb := words_mul (t.l.length * t.w)
  refine ⟨by show (memResize _ _).length = _; rw [memResize_length, r.w], fun j hj => ?_⟩
  show valAt (memResize s.mem (words (n * s.w))) _ _ = _
  have := fit (w := t.w) hj
  rw [valAt_memResize (by omega) (by rw [r.w]; omega)]
  rfl

theorem rel_resize_shrink {s : Vec} {t : VSpec} (r : Rel s t) {n : Nat} (hn : n ≤ t.l.length) : Rel (s.resize n) { t with l := t.l.take n } := by
  have hw := words_mono (Nat.mul_le_mul_right t.w hn)
  have hm := r.mem
  refine rel_shrink r hn _ ?_
  unfold memResize
  rw [r.w, show 64 * words (n * t.w) - s.mem.length = 0 by omega]
  simp

theorem rel_resizeV {s : Vec} {t : VSpec} (r : Rel s t) (n v : Nat) : ∃ s', s.resizeV n v = .ok s' ∧ s'.fixed = s.fixed ∧
    Rel s' { t with l := t.l.take n ++ List.replicate (n - t.l.length) (v % 2 ^ t.w) } := by
  unfold Vec.resizeV
  dsimp only
  by_cases h : s.size < n
  · rw [if_pos h]
    have hs := r.size
    obtain ⟨h1, h2⟩ := rel_resize_grow r (show t.l.length ≤ n by omega)
    obtain ⟨m, e, l, g⟩ := fill_spec t.w v n (n - t.l.length) t.l.length (s.resize n).mem (by omega) (by rw [h1]; exact (words_mul _).1)
    have e' : fill (s.resize n).w v (n - s.size) s.size (s.resize n).mem = .ok m := by
      rw [show (s.resize n).w = t.w from r.w, hs]; exact e
    rw [e']
    have hlen : (t.l.take n ++ List.replicate (n - t.l.length) (v % 2 ^ t.w)).length = n := by simp; omega
    refine ⟨_, rfl, rfl, r.w, r.w1, r.w64, by show n = _; exact hlen.symm, ?_, fun j hj => ?_⟩
    · show m.length = 64 * words ((t.l.take n ++ List.replicate (n - t.l.length) (v % 2 ^ t.w)).length * t.w)
      rw [hlen, l, h1]
    · have hj : j < (t.l.take n ++ List.replicate (n - t.l.length) (v % 2 ^ t.w)).length := hj
      rw [hlen] at hj
      show (t.l.take n ++ List.replicate (n - t.l.length) (v % 2 ^ t.w))[j]? = some (el m t.w j)
      rw [g, List.take_of_length_le (by omega)]
      by_cases hj2 : j < t.l.length
      · rw [if_neg (by omega), List.getElem?_append_left hj2, r.els j hj2, h2 j hj2]
      · rw [if_pos (by omega), List.getElem?_append_right (by omega), List.getElem?_replicate, if_pos (by omega)]
  · rw [if_neg h]
    have hs := r.size
    refine ⟨_, rfl, rfl, ?_⟩
    rw [show n - t.l.length = 0 by omega, List.replicate_zero, List.append_nil]
    exact rel_resize_shrink r (by omega)

theorem rel_insertN {s : Vec} {t : VSpec} (r : Rel s t) {p n : Nat} (v : Nat) (hp : p ≤ t.l.length) : ∃ s', s.insertN p n v = .ok s' ∧ s'.fixed = s.fixed ∧
    Rel s' { t with l := t.l.take p ++ List.replicate n (v % 2 ^ t.w) ++ t.l.drop p } := by
  have hm := r.mem
  have hs := r.size
  have hb := words_mul (t.l.length * t.w)
  have hsum : (t.l.length + n) * t.w = t.l.length * t.w + n * t.w := Nat.add_mul _ _ _
  unfold Vec.insertN
  dsimp only
  rw [r.w, hs]
  generalize hneed : (if n * t.w > s.mem.length - t.l.length * t.w then n * t.w - (s.mem.length - t.l.length * t.w) else 0) = need
  have hnb := words_mul need
  have hlen : (s.mem ++ List.replicate (64 * words need) false).length = 64 * words ((t.l.length + n) * t.w) := by
    rw [List.length_append, List.length_replicate, hm, ← Nat.mul_add]
    congr 1
    symm
    apply words_unique
    · split at hneed <;> omega
    · split at hneed
      · omega
      · have : words need = 0 := by rw [← hneed]; rfl
        omega
  have hfit : (t.l.length + n) * t.w ≤ (s.mem ++ List.replicate (64 * words need) false).length := by rw [hlen]; exact (words_mul _).1
  obtain ⟨m1, e1, l1, g1⟩ := moveBack_spec t.w (t.l.length + n) (t.l.length - p) t.l.length (t.l.length + n) _ (by omega) (by omega) (by omega) hfit
  rw [e1]
  dsimp only
  obtain ⟨m2, e2, l2, g2⟩ := fill_spec t.w v (t.l.length + n) n p m1 (by omega) (by omega)
  rw [e2]
  have hlen2 : (t.l.take p ++ List.replicate n (v % 2 ^ t.w) ++ t.l.drop p).length = t.l.length + n := by simp; omega
  refine ⟨_, rfl, rfl, by first | exact r.w | rfl, r.w1, r.w64, hlen2.symm, ?_, fun j hj => ?_⟩
  · show m2.length = 64 * words ((t.l.take p ++ List.replicate n (v % 2 ^ t.w) ++ t.l.drop p).length * t.w)
    rw [hlen2, l2, l1, hlen]
  · have hj : j < (t.l.take p ++ List.replicate n (v % 2 ^ t.w) ++ t.l.drop p).length := hj
    rw [hlen2] at hj
    show (t.l.take p ++ List.replicate n (v % 2 ^ t.w) ++ t.l.drop p)[j]? = some (el m2 t.w j)
    have hel : ∀ i, i < t.l.length → el (s.mem ++ List.replicate (64 * words need) false) t.w i = el s.mem t.w i := fun i hi =>
      valAt_append (Nat.le_trans (fit hi) r.fits)
    have hlp : (t.l.take p).length = p := by simp; omega
    rw [g2, g1]
    by_cases h1 : j < p
    · rw [if_neg (by omega), if_neg (by omega), List.append_assoc, List.getElem?_append_left (by omega), List.getElem?_take, if_pos h1,
        r.els j (by omega), hel j (by omega)]
    · by_cases h2 : j < p + n
      · rw [if_pos (by omega), List.append_assoc, List.getElem?_append_right (by omega), List.getElem?_append_left (by simp; omega),
          List.getElem?_replicate, if_pos (by omega)]
      · rw [if_neg (by omega), if_pos (by omega), List.getElem?_append_right (by simp; omega), List.getElem?_drop]
        simp only [List.length_append, hlp, List.length_replicate]
        rw [show p + (j - (p + n)) = j - n by omega, r.els _ (by omega), show j - (t.l.length + n - t.l.length) = j - n by omega, hel _ (by omega)]

theorem rel_insertL : ∀ (vs : List Nat) {s : Vec} {t : VSpec} (_ : Rel s t) {p : Nat} (_ : p ≤ t.l.length), ∃ s', s.insertL p vs = .ok s' ∧ s'.fixed = s.fixed ∧
    Rel s' { t with l := t.l.take p ++ vs.map (· % 2 ^ t.w) ++ t.l.drop p }
  | [], s, t, r, p, hp => ⟨s, rfl, rfl, by simpa using r⟩
  | v :: vs, s, t, r, p, hp => by
    obtain ⟨s1, e1, f1, r1⟩ := rel_insertN r (n := 1) v hp
    have hlp : (t.l.take p).length = p := by simp; omega
    obtain ⟨s2, e2, f2, r2⟩ := rel_insertL vs r1 (p := p + 1) (by simp; omega)
    refine ⟨s2, by rw [Vec.insertL, e1]; exact e2, f2.trans f1, ?_⟩
    have e : (t.l.take p ++ List.replicate 1 (v % 2 ^ t.w) ++ t.l.drop p).take (p + 1) = t.l.take p ++ [v % 2 ^ t.w] := by
      rw [List.take_append_of_le_length (by simp; omega), List.take_of_length_le (by simp)]
      rfl
    have e' : (t.l.take p ++ List.replicate 1 (v % 2 ^ t.w) ++ t.l.drop p).drop (p + 1) = t.l.drop p := by
      rw [List.drop_append_of_le_length (by simp; omega), List.drop_of_length_le (by simp)]
      rfl
    simp only [e, e'] at r2
    simpa using r2

theorem rel_erase {s : Vec} {t : VSpec} (r : Rel s t) {a b : Nat} (hab : a ≤ b) (hb : b ≤ t.l.length) : ∃ s', s.erase a b = .ok s' ∧ s'.fixed = s.fixed ∧
    Rel s' { t with l := t.l.take a ++ t.l.drop b } := by
  have hm := r.mem
  have hs := r.size
  unfold Vec.erase
  rw [r.w, hs]
  obtain ⟨m, e, l, g⟩ := moveFwd_spec t.w t.l.length (t.l.length - b) b a s.mem hab (by omega) r.fits
  rw [e]
  dsimp only
  have hlen : (t.l.take a ++ t.l.drop b).length = t.l.length - (b - a) := by simp; omega
  have hw := words_mono (Nat.mul_le_mul_right t.w (show t.l.length - (b - a) ≤ t.l.length by omega))
  refine ⟨_, rfl, rfl, by first | exact r.w | rfl, r.w1, r.w64, hlen.symm, ?_, fun j hj => ?_⟩
  · show (m.take _).length = 64 * words ((t.l.take a ++ t.l.drop b).length * t.w)
    rw [hlen, List.length_take]
    omega
  · have hj : j < (t.l.take a ++ t.l.drop b).length := hj
    rw [hlen] at hj
    show (t.l.take a ++ t.l.drop b)[j]? = some (el (m.take _) t.w j)
    have h1 := fit (w := t.w) hj
    have h2 := words_mul ((t.l.length - (b - a)) * t.w)
    have : el (m.take (m.length - (m.length - 64 * words ((t.l.length - (b - a)) * t.w)))) t.w j = el m t.w j := valAt_take (by omega)
    rw [this, g]
    have hla : (t.l.take a).length = a := by simp; omega
    by_cases hj2 : j < a
    · rw [if_neg (by omega), List.getElem?_append_left (by omega), List.getElem?_take, if_pos hj2, r.els j (by omega)]
    · rw [if_pos (by omega), List.getElem?_append_right (by omega), List.getElem?_drop, hla, r.els _ (by omega)]
      congr 2
      omega

theorem rel_regrid {s : Vec} {t : VSpec} (r : Rel s t) (hf : s.fixed = false) {n w : Nat} (hw1 : 1 ≤ w) (hw64 : w ≤ 64) (hne : w ≠ t.w) :
    ∃ s', s.regrid n w = .ok s' ∧ s'.fixed = s.fixed ∧ s'.w = w ∧ s'.size = n ∧ s'.mem.length = 64 * words (n * w) ∧
      ∀ j, j < min t.l.length n → el s'.mem w j = el s.mem t.w j % 2 ^ w := by
  have hm := r.mem
  have hs := r.size
  have hmin1 : min t.l.length n * w ≤ n * w := Nat.mul_le_mul_right _ (Nat.min_le_right _ _)
  have hmin2 : min t.l.length n * t.w ≤ t.l.length * t.w := Nat.mul_le_mul_right _ (Nat.min_le_left _ _)
  have hb := words_mul (n * w)
  have hb2 := words_mul (t.l.length * t.w)
  unfold Vec.regrid
  rw [r.w, hs]
  by_cases h : t.w < w
  · rw [if_pos h]
    obtain ⟨m, e, l, g, -⟩ := regridUp_spec t.w w (by omega) (min t.l.length n) (memResize s.mem (words (n * w))) (by rw [memResize_length]; omega)
    rw [e]
    dsimp only
    refine ⟨_, rfl, ?_, ?_, ?_, ?_, fun j hj => ?_⟩ <;> simp only [Vec.setW, hf, Bool.false_eq_true, if_false]
    · rw [l, memResize_length]
    · rw [g j hj, Nat.mod_eq_of_lt (Nat.lt_of_lt_of_le (el_lt _ _ _) (Nat.pow_le_pow_right (by decide) (by omega)))]
      have hmin3 : min t.l.length n * t.w ≤ min t.l.length n * w := Nat.mul_le_mul_left _ (by omega)
      have := fit (w := t.w) hj
      exact valAt_memResize (by omega) (by omega)
  · have h' : w < t.w := by omega
    rw [if_neg h, if_pos h']
    obtain ⟨m, e, l, g, -⟩ := regridDown_spec t.w w (by omega) (min t.l.length n) 0 s.mem (by rw [Nat.zero_add]; omega)
    rw [e]
    dsimp only
    refine ⟨_, rfl, ?_, ?_, ?_, ?_, fun j hj => ?_⟩ <;> simp only [Vec.setW, hf, Bool.false_eq_true, if_false]
    · rw [memResize_length]
    · have hmin3 : min t.l.length n * w ≤ min t.l.length n * t.w := Nat.mul_le_mul_left _ (by omega)
      have := fit (w := w) hj
      rw [show el (memResize m (words (n * w))) w j = el m w j from valAt_memResize (by omega) (by omega)]
      exact g j (Nat.zero_le _) (by omega)

theorem rel_resizeW {s : Vec} {t : VSpec} (r : Rel s t) (hf : s.fixed = false) {n v w : Nat} (hw1 : 1 ≤ w) (hw64 : w ≤ 64) (hne : w = t.w → n = t.l.length) :
    ∃ s', s.resizeW n v w = .ok s' ∧ s'.fixed = s.fixed ∧ Rel s' { w := w, l := (t.l.take n ++ List.replicate (n - t.l.length) v).map (· % 2 ^ w) } := by
  have hs := r.size
  unfold Vec.resizeW
  by_cases hw : w = t.w
  · have hn := hne hw
    have : s.regrid n w = .ok s := by
      unfold Vec.regrid
      rw [r.w, if_neg (by omega), if_neg (by omega)]
    rw [this]
    dsimp only
    rw [if_neg (by omega)]
    refine ⟨s, rfl, rfl, ?_⟩
    subst hn hw
    have : (t.l.take t.l.length ++ List.replicate (t.l.length - t.l.length) v).map (· % 2 ^ t.w) = t.l := by
      simp only [List.take_length, Nat.sub_self, List.replicate_zero, List.append_nil]
      apply List.ext_getElem?
      intro i
      rw [List.getElem?_map]
      by_cases hi : i < t.l.length
      · rw [r.els i hi, Option.map_some, Nat.mod_eq_of_lt (el_lt _ _ _)]
      · rw [List.getElem?_eq_none (by omega)]; rfl
    rw [this]
    exact r
  · obtain ⟨s1, e1, f1, w1, z1, l1, g1⟩ := rel_regrid (n := n) r hf hw1 hw64 hw
    rw [e1]
    dsimp only
    have hlen : ((t.l.take n ++ List.replicate (n - t.l.length) v).map (· % 2 ^ w)).length = n := by simp; omega
    have hb := words_mul (n * w)
    by_cases h : s.size < n
    · rw [if_pos h, w1, z1, hs]
      obtain ⟨m, e, l, g⟩ := fill_spec w v n (n - t.l.length) t.l.length s1.mem (by omega) (by omega)
      rw [e]
      refine ⟨_, rfl, f1, rfl, hw1, hw64, hlen.symm, by rw [hlen]; exact l.trans l1, fun j hj => ?_⟩
      rw [hlen] at hj
      show ((t.l.take n ++ List.replicate (n - t.l.length) v).map (· % 2 ^ w))[j]? = some (el m w j)
      rw [g, List.getElem?_map, List.take_of_length_le (by omega)]
      by_cases hj2 : j < t.l.length
      · rw [if_neg (by omega), List.getElem?_append_left hj2, r.els j hj2, g1 j (by omega)]; rfl
      · rw [if_pos (by omega), List.getElem?_append_right (by omega), List.getElem?_replicate, if_pos (by omega)]; rfl
    · rw [if_neg h]
      refine ⟨_, rfl, f1, w1, hw1, hw64, by rw [hlen]; exact z1, by rw [hlen]; exact l1, fun j hj => ?_⟩
      rw [hlen] at hj
      show ((t.l.take n ++ List.replicate (n - t.l.length) v).map (· % 2 ^ w))[j]? = some (el s1.mem w j)
      rw [List.getElem?_map, List.getElem?_append_left (by simp; omega), List.getElem?_take, if_pos hj, r.els j (by omega), g1 j (by omega)]; rfl

theorem rel_exec {s : Vec} {t : VSpec} (r : Rel s t) (o : Op) (ha : o.allowed s.fixed t) (hs : o.sound t) : ∃ s', o.exec s = .ok s' ∧ s'.fixed = s.fixed ∧
    Rel s' (o.spec s.fixed t) := by
  cases o with
  | push v => exact rel_push r v
  | pop => exact rel_pop r ha
  | set i v => exact rel_set r ha
  | resize n =>
    refine ⟨_, rfl, rfl, ?_⟩
    have hs : n ≤ t.l.length := hs
    show Rel _ { t with l := t.l.take n ++ List.replicate (n - t.l.length) 0 }
    rw [show n - t.l.length = 0 by omega, List.replicate_zero, List.append_nil]
    exact rel_resize_shrink r hs
  | resizeV n v => exact rel_resizeV r n v
  | resizeW n v w => exact rel_resizeW r ha.1 ha.2.1 ha.2.2 hs
  | width w =>
    have := rel_resizeW (n := t.l.length) (v := 0) r ha.1 ha.2.1 ha.2.2 (fun _ => rfl)
    simp only [List.take_length, Nat.sub_self, List.replicate_zero, List.append_nil] at this
    show ∃ s', s.resizeW s.size 0 w = .ok s' ∧ _
    rw [r.size]
    exact this
  | insert p n v => exact rel_insertN r v ha
  | insertL p vs => exact rel_insertL vs r ha
  | erase a b => exact rel_erase r ha.1 ha.2
  | clear => exact ⟨_, rfl, rfl, r.w, r.w1, r.w64, rfl, by simp [Vec.clear, Op.spec, words], fun i hi => by simp [Op.spec] at hi⟩
  | assign n v =>
    have hw : (Option.getD (if s.fixed then some s.w else none) 64) = (if s.fixed then t.w else 64) := by
      rw [r.w]; split <;> rfl
    have := rel_mk0 (if s.fixed then some s.w else none) (by
      intro w hw
      split at hw
      · injection hw with hw
        rw [← hw, r.w]; exact ⟨r.w1, r.w64⟩
      · cases hw)
    rw [hw] at this
    obtain ⟨s', e, f, r'⟩ := rel_resizeV this n v
    refine ⟨s', e, f.trans ?_, ?_⟩
    · unfold Vec.mk0; cases s.fixed <;> rfl
    · simpa [Op.spec] using r'

/-- A history of operations on the specification. -/
def specRun (fixed : Bool) : List Op → VSpec → VSpec
  | [], t => t
  | o :: os, t => specRun fixed os (o.spec fixed t)

/-- A history on which every operation is allowed (and, for `P`, satisfies it). -/
def Legal (fixed : Bool) (P : VSpec → Op → Prop) : List Op → VSpec → Prop
  | [], _ => True
  | o :: os, t => o.allowed fixed t ∧ P t o ∧ Legal fixed P os (o.spec fixed t)

/-- A history of the code. -/
def execRun : List Op → Vec → Res Vec
  | [], s => .ok s
  | o :: os, s =>
    match o.exec s with
    | .error e => .error e
    | .ok s => execRun os s

theorem rel_execRun : ∀ (os : List Op) {s : Vec} {t : VSpec}, Rel s t → Legal s.fixed (fun t o => o.sound t) os t → ∃ s', execRun os s = .ok s' ∧ s'.fixed = s.fixed ∧
    Rel s' (specRun s.fixed os t)
  | [], s, t, r, _ => ⟨s, rfl, rfl, r⟩
  | o :: os, s, t, r, ⟨h1, h2, h3⟩ => by
    obtain ⟨s1, e1, f1, r1⟩ := rel_exec r o h1 h2
    rw [← f1] at h3 r1 ⊢
    obtain ⟨s2, e2, f2, r2⟩ := rel_execRun os r1 h3
    exact ⟨s2, by rw [execRun, e1]; exact e2, f2.trans rfl, r2⟩

/-- What an observer sees of the vector equals the specification: width, size, every element, and a minimal number of words. -/
def Shows (s : Vec) (t : VSpec) : Prop :=
  s.w = t.w ∧ s.size = t.l.length ∧ (∀ i (h : i < t.l.length), s.get i = .ok t.l[i]) ∧ ∃ n, s.mem.length = 64 * n ∧ n = (t.l.length * t.w + 63) / 64

theorem Rel.shows {s : Vec} {t : VSpec} (r : Rel s t) : Shows s t := by
  refine ⟨r.w, r.size, fun i h => ?_, _, r.mem, ?_⟩
  · have h2 := r.els i h
    rw [List.getElem?_eq_getElem h] at h2
    injection h2 with h2
    rw [h2, Vec.get, r.w]
    exact rdEl h r.fits
  · have := words_mul (t.l.length * t.w)
    omega

/-- The full property for a history: no undefined behaviour, and the vector shows the specification. -/
def Correct (fixed : Option Nat) (os : List Op) : Prop :=
  ∃ s, execRun os (Vec.mk0 fixed) = .ok s ∧ Shows s (specRun fixed.isSome os ⟨fixed.getD 64, []⟩)

/-- **C37 (part).** For a fixed width of 1 to 64 bits and for dynamic widths: every history of operations that respects the
preconditions, grows only with `push_back`, `insert`, `assign` or `resize(n, val)`, and changes the size together with the width only
if the width really changes, runs without undefined behaviour and shows the specification. -/
theorem bpv_refines_partial (fixed : Option Nat) (hf : ∀ w, fixed = some w → 1 ≤ w ∧ w ≤ 64) (os : List Op)
    (h : Legal fixed.isSome (fun t o => o.sound t) os ⟨fixed.getD 64, []⟩) : Correct fixed os := by
  obtain ⟨s, e, -, r⟩ := rel_execRun os (rel_mk0 fixed hf) h
  exact ⟨s, e, r.shows⟩

/-- Legal without the exceptions. -/
def LegalAll (fixed : Option Nat) (os : List Op) : Prop := Legal fixed.isSome (fun _ _ => True) os ⟨fixed.getD 64, []⟩

/-- **C37, negation: `resize(n)`.** Growing with `resize(n)` after shrinking brings the removed values back instead of zeros. -/
theorem bpv_resize_stale : ∃ os, LegalAll (some 5) os ∧ ¬ Correct (some 5) os := by
  refine ⟨[.push 1, .push 7, .pop, .resize 2], ⟨trivial, trivial, trivial, trivial, by simp [Op.allowed, Op.spec], trivial, trivial, trivial, trivial⟩, ?_⟩
  rintro ⟨s, e, -, -, h, -⟩
  have e' : execRun [.push 1, .push 7, .pop, .resize 2] (Vec.mk0 (some 5)) =
      .ok ⟨5, 2, [true, false, false, false, false, true, true, true] ++ List.replicate 56 false, true⟩ := by decide +kernel
  rw [e'] at e
  injection e with e
  subst e
  have := h 1 (by decide)
  revert this
  decide +kernel

/-- **C37, negation: `resize(n, val, w)`.** With `w` the current width nothing happens: the size stays. -/
theorem bpv_resize_same_width : ∃ os, LegalAll none os ∧ ¬ Correct none os := by
  refine ⟨[.resizeW 3 1 64], ⟨⟨rfl, by decide, by decide⟩, trivial, trivial⟩, ?_⟩
  rintro ⟨s, e, -, h, -⟩
  have e' : execRun [.resizeW 3 1 64] (Vec.mk0 none) = .ok ⟨64, 0, [], false⟩ := by decide +kernel
  rw [e'] at e
  injection e with e
  subst e
  revert h
  decide

/-- **C37, negation: fixed widths.** The documentation says `width(w)` throws for vectors of fixed width; instead it moves the elements to
a grid that is not used for reading, so other values come back. -/
theorem bpv_fixed_width_corrupts : ∃ s, execRun [.push 1, .push 2, .push 3, .width 7] (Vec.mk0 (some 5)) = .ok s ∧ s.size = 3 ∧ s.get 1 ≠ .ok 2 := by
  have h : (execRun [.push 1, .push 2, .push 3, .width 7] (Vec.mk0 (some 5))).map (fun s => (s.size, s.get 1)) = .ok (3, .ok 8) := by decide +kernel
  cases hr : execRun [.push 1, .push 2, .push 3, .width 7] (Vec.mk0 (some 5)) with
  | error e => rw [hr] at h; cases h
  | ok s =>
    rw [hr] at h
    injection h with h
    injection h with h1 h2
    have h2 : s.get 1 = .ok 8 := h2
    exact ⟨s, rfl, h1, by rw [h2]; decide⟩

/-- **C37, negation: moved-from vectors.** After a move, `size()` still counts the elements, and reading any of them is out of bounds. -/
theorem bpv_moved_from (s : Vec) (t : VSpec) (h : Rel s t) : s.movedFrom.size = t.l.length ∧ ∀ i, s.movedFrom.get i = .error .ub := by
  refine ⟨h.size, fun i => ?_⟩
  have := h.w1
  have := h.w
  unfold Vec.get rdBits Vec.movedFrom
  rw [if_neg]
  simp only [List.length_nil]
  omega

/-- **C37, negation: `capacity()`.** It rounds up: one word is said to hold 13 elements of 5 bits, but the 13th needs another word. -/
theorem bpv_capacity : capacity 1 5 = 13 ∧ words (12 * 5) = 1 ∧ words (13 * 5) = 2 := by decide

/-- `capacity()` never says less than what fits. -/
theorem capacity_ge (n w k : Nat) (hw : 1 ≤ w) (h : k * w ≤ 64 * n) : k ≤ capacity n w := by
  unfold capacity
  split
  · have : k * 1 ≤ k * w := Nat.mul_le_mul_left k hw
    omega
  · by_contra hk
    have h1 : ((64 * n - 1) / w + 1 + 1) * w ≤ k * w := Nat.mul_le_mul_right _ (by omega)
    have h2 : 64 * n - 1 < ((64 * n - 1) / w + 1) * w := by
      rw [Nat.mul_comm ((64 * n - 1) / w + 1)]; exact Nat.lt_mul_div_succ _ hw
    rw [Nat.succ_mul ((64 * n - 1) / w + 1)] at h1
    omega

/-! ### Equality -/

theorem eqTail_spec {s t : Vec} {a b : VSpec} (r : Rel s a) (q : Rel t b) (hw : a.w = b.w) (hl : a.l.length = b.l.length) : ∀ k, k ≤ a.l.length →
    eqTail s t k = .ok (decide (∀ i, a.l.length - k ≤ i → i < a.l.length → el s.mem a.w i = el t.mem a.w i))
  | 0, _ => by
    rw [eqTail]
    congr 1
    symm
    simp only [decide_eq_true_eq]
    intro i h1 h2; omega
  | k + 1, hk => by
    have e1 : rdBits s.mem ((s.size - (k + 1)) * s.w) s.w = .ok (el s.mem a.w (a.l.length - (k + 1))) := by
      rw [r.size, r.w]; exact rdEl (show a.l.length - (k + 1) < a.l.length by omega) r.fits
    have e2 : rdBits t.mem ((t.size - (k + 1)) * t.w) t.w = .ok (el t.mem a.w (a.l.length - (k + 1))) := by
      rw [q.size, q.w, hw, hl]; exact rdEl (show b.l.length - (k + 1) < b.l.length by omega) q.fits
    rw [eqTail, e1, e2]
    dsimp only
    by_cases h : el s.mem a.w (a.l.length - (k + 1)) = el t.mem a.w (a.l.length - (k + 1))
    · rw [if_pos h, eqTail_spec r q hw hl k (by omega)]
      congr 1
      apply decide_eq_decide.2
      constructor
      · intro H i h1 h2
        by_cases hi : i = a.l.length - (k + 1)
        · rw [hi]; exact h
        · exact H i (by omega) h2
      · intro H i h1 h2
        exact H i (by omega) h2
    · rw [if_neg h]
      congr 1
      symm
      simp only [decide_eq_false_iff_not]
      intro H
      exact h (H _ (Nat.le_refl _) (by omega))

theorem list_eq_iff {s t : Vec} {a b : VSpec} (r : Rel s a) (q : Rel t b) (hw : a.w = b.w) (hl : a.l.length = b.l.length) :
    a.l = b.l ↔ ∀ i, i < a.l.length → el s.mem a.w i = el t.mem a.w i := by
  constructor
  · intro h i hi
    have h1 := r.els i hi
    have h2 := q.els i (by omega)
    rw [← h, h1, ← hw] at h2
    injection h2
  · intro h
    apply List.ext_getElem?
    intro i
    by_cases hi : i < a.l.length
    · rw [r.els i hi, q.els i (by omega), h i hi, hw]
    · rw [List.getElem?_eq_none (by omega), List.getElem?_eq_none (by omega)]

theorem bits_eq_of_els {m1 m2 : List Bool} {w : Nat} (hw : 1 ≤ w) (n : Nat) (h1 : n * w ≤ m1.length) (h2 : n * w ≤ m2.length) (h : ∀ i, i < n → el m1 w i = el m2 w i) :
    m1.take (n * w) = m2.take (n * w) := by
  apply List.ext_getElem?
  intro i
  rw [List.getElem?_take, List.getElem?_take]
  split
  · rename_i hi
    have hd : i / w < n := Nat.div_lt_of_lt_mul (by rw [Nat.mul_comm]; exact hi)
    have hf := fit (w := w) hd
    have := valLE_inj _ _ (by simp only [List.length_take, List.length_drop]; omega) (h (i / w) hd)
    have h3 := congrArg (fun l => l[i % w]?) this
    simp only [List.getElem?_take, List.getElem?_drop] at h3
    have hm : i % w < w := Nat.mod_lt _ hw
    rw [if_pos hm, if_pos hm] at h3
    have : i / w * w + i % w = i := by rw [Nat.mul_comm]; exact Nat.div_add_mod i w
    rwa [this] at h3
  · rfl

theorem els_eq_of_bits {m1 m2 : List Bool} {k p w : Nat} (h : m1.take k = m2.take k) (hk : p + w ≤ k) : valAt m1 p w = valAt m2 p w := by
  rw [← valAt_take (mem := m1) hk, ← valAt_take (mem := m2) hk, h]

/-- **C37 (equality).** `operator==` on two vectors of the same width decides equality of the lists. -/
theorem bpv_eq {s t : Vec} {a b : VSpec} (r : Rel s a) (q : Rel t b) (hw : a.w = b.w) : s.eq t = .ok (decide (a.l = b.l)) := by
  unfold Vec.eq
  by_cases hl : a.l.length = b.l.length
  · rw [if_pos (by rw [r.size, q.size]; exact hl)]
    have hm1 := r.mem
    have hm2 := q.mem
    have hmm : s.mem.length = t.mem.length := by rw [hm1, hm2, hl, hw]
    have hb := words_mul (a.l.length * a.w)
    dsimp only
    rw [r.size, r.w]
    have hlist := list_eq_iff r q hw hl
    by_cases h0 : s.mem.length - a.l.length * a.w = 0
    · rw [if_pos h0]
      congr 1
      have hlen : s.mem.length = a.l.length * a.w := by omega
      have : s.mem = t.mem ↔ a.l = b.l := by
        rw [hlist]
        constructor
        · intro h i _; rw [h]
        · intro h
          have := bits_eq_of_els r.w1 a.l.length (by omega) (by omega) h
          rwa [List.take_of_length_le (by omega), List.take_of_length_le (by omega)] at this
      by_cases h : s.mem = t.mem
      · rw [decide_eq_true (this.1 h), h]; simp
      · rw [decide_eq_false (fun h' => h (this.2 h'))]
        simpa using h
    · rw [if_neg h0]
      have hpos : 0 < a.l.length := by
        by_contra hz
        have : a.l.length = 0 := by omega
        rw [this] at hm1 h0
        simp [words] at hm1
        simp [hm1] at h0
      have hwp := r.w1
      have hlw : a.w ≤ a.l.length * a.w := Nat.le_mul_of_pos_left _ hpos
      have hge : 64 ≤ s.mem.length := by omega
      -- number of elements touching the last word
      have hk1 : (64 - (s.mem.length - a.l.length * a.w) - 1) / a.w + 1 ≤ a.l.length := by
        have : (64 - (s.mem.length - a.l.length * a.w) - 1) / a.w < a.l.length := by
          apply Nat.div_lt_of_lt_mul
          rw [Nat.mul_comm a.w]
          omega
        omega
      have hk2 : 64 - (s.mem.length - a.l.length * a.w) ≤ ((64 - (s.mem.length - a.l.length * a.w) - 1) / a.w + 1) * a.w := by
        have := Nat.lt_mul_div_succ (64 - (s.mem.length - a.l.length * a.w) - 1) hwp
        rw [Nat.mul_comm a.w] at this
        omega
      generalize (64 - (s.mem.length - a.l.length * a.w) - 1) / a.w + 1 = k at hk1 hk2 ⊢
      by_cases hp : s.mem.take (s.mem.length - 64) = t.mem.take (s.mem.length - 64)
      · rw [if_pos (by simpa using hp), eqTail_spec r q hw hl k hk1]
        congr 1
        apply decide_eq_decide.2
        rw [hlist]
        constructor
        · intro H i hi
          by_cases hi2 : a.l.length - k ≤ i
          · exact H i hi2 hi
          · have hf := fit (w := a.w) (show i < a.l.length - k by omega)
            have hsub : (a.l.length - k) * a.w = a.l.length * a.w - k * a.w := Nat.sub_mul _ _ _
            have hkl : k * a.w ≤ a.l.length * a.w := Nat.mul_le_mul_right _ hk1
            exact els_eq_of_bits hp (by omega)
        · intro H i _ hi
          exact H i hi
      · rw [if_neg (by simpa using hp)]
        congr 1
        symm
        rw [decide_eq_false_iff_not, hlist]
        intro H
        apply hp
        have := bits_eq_of_els hwp a.l.length (by omega) (by omega) H
        have h2 := congrArg (List.take (s.mem.length - 64)) this
        rwa [List.take_take, List.take_take, Nat.min_eq_left (by omega)] at h2
  · rw [if_neg (by rw [r.size, q.size]; exact hl)]
    congr 1
    symm
    rw [decide_eq_false_iff_not]
    intro h
    exact hl (by rw [h])

/-- **C37 (equality after any two histories).** Two vectors of the same final width compare equal exactly if they contain the same. -/
theorem bpv_eq_histories (f g : Option Nat) (hf : ∀ w, f = some w → 1 ≤ w ∧ w ≤ 64) (hg : ∀ w, g = some w → 1 ≤ w ∧ w ≤ 64) (os ps : List Op)
    (ho : Legal f.isSome (fun t o => o.sound t) os ⟨f.getD 64, []⟩) (hp : Legal g.isSome (fun t o => o.sound t) ps ⟨g.getD 64, []⟩)
    (hw : (specRun f.isSome os ⟨f.getD 64, []⟩).w = (specRun g.isSome ps ⟨g.getD 64, []⟩).w) :
    ∃ s t, execRun os (Vec.mk0 f) = .ok s ∧ execRun ps (Vec.mk0 g) = .ok t ∧
      s.eq t = .ok (decide ((specRun f.isSome os ⟨f.getD 64, []⟩).l = (specRun g.isSome ps ⟨g.getD 64, []⟩).l)) := by
  obtain ⟨s, e, -, r⟩ := rel_execRun os (rel_mk0 f hf) ho
  obtain ⟨t, e', -, q⟩ := rel_execRun ps (rel_mk0 g hg) hp
  exact ⟨s, t, e, e', bpv_eq r q hw⟩

/-! ### Iterators -/

theorem it_next (i w : Nat) : (It.at i w).next = It.at (i + 1) w := by
  unfold It.next It.at
  dsimp only
  have : 64 * (i * w / 64) + i * w % 64 = i * w := Nat.div_add_mod _ _
  rw [this, Nat.succ_mul]

theorem it_lt (i j w : Nat) (hw : 1 ≤ w) : (It.at i w).lt (It.at j w) = decide (i < j) := by
  unfold It.lt It.at
  dsimp only
  have key : i * w < j * w ↔ i < j := Nat.mul_lt_mul_right hw
  by_cases h : i < j
  · have := key.2 h
    rw [decide_eq_true h]
    by_cases h1 : i * w / 64 < j * w / 64
    · simp [h1]
    · have : i * w / 64 = j * w / 64 := by omega
      have : i * w % 64 < j * w % 64 := by omega
      simp_all
  · have : j * w ≤ i * w := Nat.mul_le_mul_right _ (by omega)
    rw [decide_eq_false h]
    simp only [Bool.or_eq_false_iff, decide_eq_false_iff_not, Bool.and_eq_false_imp, decide_eq_true_eq]
    exact ⟨by omega, fun _ => by omega⟩

theorem it_eq (i j w : Nat) (hw : 1 ≤ w) : (It.at i w).eq (It.at j w) = decide (i = j) := by
  unfold It.eq It.at
  dsimp only
  by_cases h : i = j
  · simp [h]
  · rw [decide_eq_false h]
    simp only [Bool.and_eq_false_imp, decide_eq_true_eq, decide_eq_false_iff_not]
    intro h1 h2
    have : i * w = j * w := by omega
    exact h (Nat.eq_of_mul_eq_mul_right hw this)

/-- **C37 (iterators, part).** `++`, `==`, `<` and `<=` of iterators are those of the positions, and differences of an iterator and an
earlier one are the difference of the positions. -/
theorem bpv_iterators_partial (i j w : Nat) (hw : 1 ≤ w) (hi : i * w < 2 ^ 63) : (It.at i w).next = It.at (i + 1) w ∧
    (It.at i w).lt (It.at j w) = decide (i < j) ∧ (It.at i w).eq (It.at j w) = decide (i = j) ∧ (It.at i w).le (It.at j w) = decide (i ≤ j) ∧
    (j ≤ i → (It.at i w).diff (It.at j w) = (i : Int) - j) := by
  refine ⟨it_next i w, it_lt i j w hw, it_eq i j w hw, ?_, fun hji => ?_⟩
  · unfold It.le
    rw [it_lt i j w hw, it_eq i j w hw]
    by_cases h : i ≤ j
    · rw [decide_eq_true h]
      rcases Nat.lt_or_eq_of_le h with h | h <;> simp [h]
    · rw [decide_eq_false h, decide_eq_false (show ¬ i < j by omega), decide_eq_false (show ¬ i = j by omega)]; rfl
  · have hmul : j * w ≤ i * w := Nat.mul_le_mul_right _ hji
    have e : (((i * w / 64 : Nat) : Int) - (j * w / 64 : Nat)) * 64 + (i * w % 64 : Nat) - (j * w % 64 : Nat) = ((i * w - j * w : Nat) : Int) := by omega
    unfold It.diff It.at
    dsimp only
    rw [e]
    have h2 : (((i * w - j * w : Nat) : Int) % 2 ^ 64).toNat = i * w - j * w := by omega
    rw [h2, ← Nat.sub_mul, Nat.mul_div_cancel _ hw]
    have hil : i ≤ i * w := Nat.le_mul_of_pos_right _ hw
    rw [if_pos (by omega)]
    omega

/-- **C37, negation: iterator `>`.** It is true of an iterator and itself. -/
theorem bpv_iterator_gt (i w : Nat) (hw : 1 ≤ w) : (It.at i w).gt (It.at i w) = true := by
  unfold It.gt
  rw [it_lt i i w hw]; simp

/-- **C37, negation: iterator differences.** `begin() - (begin() + 1)` for 5 bit integers is not `-1`. -/
theorem bpv_iterator_diff : (It.at 0 5).diff (It.at 1 5) = 3689348814741910322 := by decide +kernel

/-! ### Non-vacuity -/

example : Legal false (fun t o => o.sound t) [.push 5, .push 300, .width 9, .insertL 1 [1, 2, 511], .resizeW 7 77 3, .erase 1 3, .set 0 6, .pop] ⟨64, []⟩ := by
  simp [Legal, Op.allowed, Op.sound, Op.spec]

example : (specRun false [.push 5, .push 300, .width 9, .insertL 1 [1, 2, 511], .resizeW 7 77 3, .erase 1 3, .set 0 6, .pop] ⟨64, []⟩).l = [6, 7, 4, 5] := by
  decide

example : ((execRun [.push 5, .push 300, .width 9, .insertL 1 [1, 2, 511], .resizeW 7 77 3, .erase 1 3, .set 0 6, .pop] (Vec.mk0 none)).map
    (fun s => (s.w, s.size, s.mem.length, [s.get 0, s.get 1, s.get 2, s.get 3]))) = .ok (3, 4, 64, [.ok 6, .ok 7, .ok 4, .ok 5]) := by decide +kernel

end BPV
end Tdc
