import Verif.Lemmas.LZSSCoding
import Verif.Model.LZSSLiterals
import Verif.Props.BitIO

/-!
# Properties C15 (LZSS factor coding) and C34 (literals between factors)

`lzssEncode text fs` are the `encode` calls of `lzss::encode_text`, `c.encAll` their bits, `BitO.toBytes` the file.
-/

namespace Tdc

/-- **C15.** Any sorted list of non-overlapping, correct back-references (which may overlap their own target) is coded
losslessly: decoding the bytes written by `encode_text` gives the text back, with every universal coder. -/
theorem lzss_coding_lossless (n : CoderName) (text : List UInt8) (fs : List Factor) (hn : text.length < 2 ^ 32)
    (hord : FactorsOrdered text.length 0 fs) (hm : FactorsMatch text fs) :
    lzssDecodeBack n.coder (bitsOf (BitO.toBytes (n.coder.encAll (lzssEncode text fs)))) = .ok text := by
  rw [bitsOf_toBytes]
  exact lzssDecodeBack_of_ops n.coder _ text fs (lzss_universal n text fs hn hord) hord hm

/-- **C15**, for any coder at all that can transport the tokens (each on its own). -/
theorem lzss_coding_lossless_any (c : UCoder) (text : List UInt8) (fs : List Factor) (hn : text.length < 2 ^ 32)
    (hord : FactorsOrdered text.length 0 fs) (hm : FactorsMatch text fs) (hf : fs ≠ [])
    (hok : ∀ t ∈ lzssEncode text fs, c.TokOk t) :
    lzssDecodeBack c (bitsOf (BitO.toBytes (c.encAll (lzssEncode text fs)))) = .ok text := by
  rw [bitsOf_toBytes]
  have h1 := fun t ht => hok t (List.mem_append.mpr (Or.inl ht))
  refine lzssDecodeBack_of_ops c _ text fs ?_ hord hm
  exact lzssDecode_encode c text fs hn hord (h1 (.range 0 (2 ^ 32 - 1), text.length) (by simp [lzssHeader])).1
    (UCoder.Fits.skips (t := (.range 0 text.length, shortestFactor fs)) (h1 (.range 0 text.length, shortestFactor fs) (by simp [lzssHeader])).1)
    (fun _ => (h1 (.range 0 text.length, shortestFactor fs) (by simp [lzssHeader])).1)
    (h1 (.range 0 text.length, longestFactor fs) (by simp [lzssHeader])).1
    (h1 (.range 0 text.length, fdistMaxLoop text.length fs 0 0) (by simp [lzssHeader])).1
    (fun t ht => hok t (List.mem_append.mpr (Or.inr ht)))

/-- "abcabcabcaXa" with two references, the first overlaps itself -/
example : FactorsOrdered 12 0 [⟨3, 0, 7⟩, ⟨11, 9, 1⟩] ∧
    FactorsMatch [97, 98, 99, 97, 98, 99, 97, 98, 99, 97, 88, 97] [⟨3, 0, 7⟩, ⟨11, 9, 1⟩] := by
  refine ⟨by simp [FactorsOrdered], ?_⟩
  intro f hf
  simp only [List.mem_cons, List.not_mem_nil, or_false] at hf
  rcases hf with rfl | rfl
  · exact ⟨by decide, by decide⟩
  · exact ⟨by decide, by decide⟩

/-! ## C34 -/

/-- position `q` is not covered by a factor -/
def Uncovered (fs : List Factor) (q : Nat) : Prop := ∀ f ∈ fs, ¬ (f.pos ≤ q ∧ q < f.pos + f.len)

/-- literal tokens of a token sequence -/
def literalsOf (ts : List Token) : List Nat := ts.filterMap fun t => if t.1 = .literal then some t.2 else none

theorem FactorsOrdered.ge {n : Nat} (fs : List Factor) : ∀ p, FactorsOrdered n p fs → ∀ f ∈ fs, p ≤ f.pos := by
  induction fs with
  | nil => intro p _ f hf; simp at hf
  | cons g fs ih =>
    intro p h f hf
    obtain ⟨h1, h2, h3, h4⟩ := h
    rcases List.mem_cons.mp hf with rfl | hf
    · exact h1
    · have := ih _ h4 f hf; omega

theorem FactorsOrdered.mono {n p p' : Nat} {fs : List Factor} (h : FactorsOrdered n p fs) (hp : p' ≤ p) : FactorsOrdered n p' fs := by
  cases fs with
  | nil => exact Nat.le_trans hp h
  | cons f fs => obtain ⟨h1, h2, h3, h4⟩ := h; exact ⟨by omega, h2, h3, h4⟩

/-- what `skip_factors` establishes -/
theorem skipFactors_spec {n : Nat} (fs : List Factor) : ∀ p, FactorsOrdered n p fs →
    (skipFactors p fs).pos ≤ n ∧ p ≤ (skipFactors p fs).pos ∧ FactorsOrdered n (skipFactors p fs).pos (skipFactors p fs).next ∧
    (∀ f ∈ (skipFactors p fs).next, (skipFactors p fs).pos ≠ f.pos ∨ f.len = 0) ∧
    (∀ q, p ≤ q → (Uncovered fs q ↔ (skipFactors p fs).pos ≤ q ∧ Uncovered (skipFactors p fs).next q)) ∧
    (∀ g gs, (skipFactors p fs).next = g :: gs → (skipFactors p fs).pos < g.pos) := by
  induction fs with
  | nil => intro p h; exact ⟨h, Nat.le_refl _, h, by simp [skipFactors], by intro q hq; simp [skipFactors, Uncovered, hq], by simp [skipFactors]⟩
  | cons f fs ih =>
    intro p h
    obtain ⟨h1, h2, h3, h4⟩ := h
    rw [skipFactors]
    split
    · rename_i he
      rw [← he] at h4 h3
      obtain ⟨a, b, c, d, e, g⟩ := ih _ h4
      refine ⟨a, by omega, c, d, ?_, g⟩
      intro q hq
      by_cases hql : q < p + f.len
      · refine ⟨fun hu => absurd ⟨by omega, by omega⟩ (hu f (by simp)), fun hx => ?_⟩
        have := hx.1; omega
      · rw [← e q (by omega)]
        unfold Uncovered
        simp only [List.mem_cons, forall_eq_or_imp]
        exact ⟨fun hx => hx.2, fun hx => ⟨by omega, hx⟩⟩
    · rename_i hne
      refine ⟨by show p ≤ n; omega, Nat.le_refl _, ⟨h1, h2, h3, h4⟩, ?_, ?_, ?_⟩
      · intro g hg
        left
        simp only at hg ⊢
        rcases List.mem_cons.mp hg with rfl | hg
        · exact hne
        · have := FactorsOrdered.ge fs _ h4 g hg; omega
      · intro q hq; exact ⟨fun hx => ⟨hq, hx⟩, fun hx => hx.2⟩
      · intro g gs hg
        simp only [List.cons.injEq] at hg ⊢
        obtain ⟨rfl, -⟩ := hg
        omega

open Classical in
theorem litRun_spec (text : List UInt8) : ∀ (fuel : Nat) (it : LitIter), FactorsOrdered text.length it.pos it.next →
    (∀ g gs, it.next = g :: gs → it.pos < g.pos) → text.length < it.pos + fuel →
    LitIter.run text fuel it = .ok (((List.range' it.pos (text.length - it.pos)).filter fun q => decide (Uncovered it.next q)).filterMap
      fun q => text[q]?.map fun c => (c, q)) := by
  intro fuel
  induction fuel with
  | zero => intro it h _ hf; have := h.le; omega
  | succ fuel ih =>
    intro it h hg hf
    rw [LitIter.run]
    have hle := h.le
    by_cases hp : it.pos < text.length
    · rw [List.getElem?_eq_getElem hp]
      simp only
      have h' : FactorsOrdered text.length (it.pos + 1) it.next := by
        obtain ⟨pos, next⟩ := it
        cases next with
        | nil => exact hp
        | cons f fs =>
          have := hg f fs rfl
          simp only at this hp
          obtain ⟨h1, h2, h3, h4⟩ := h
          exact ⟨by show pos + 1 ≤ f.pos; omega, h2, h3, h4⟩
      obtain ⟨a, b, c, d, e, g⟩ := skipFactors_spec it.next (it.pos + 1) h'
      rw [ih _ c g (by omega)]
      congr 1
      have hu : Uncovered it.next it.pos := by
        intro f hf
        have := FactorsOrdered.ge it.next _ h' f hf
        omega
      rw [show text.length - it.pos = (text.length - (it.pos + 1)) + 1 by omega, List.range'_succ, List.filter_cons_of_pos (by simpa using hu),
        List.filterMap_cons, List.getElem?_eq_getElem hp]
      simp only [Option.map_some, List.cons.injEq, true_and]
      -- positions skipped are covered
      have hsplit : List.range' (it.pos + 1) (text.length - (it.pos + 1)) =
          List.range' (it.pos + 1) ((skipFactors (it.pos + 1) it.next).pos - (it.pos + 1)) ++
          List.range' (skipFactors (it.pos + 1) it.next).pos (text.length - (skipFactors (it.pos + 1) it.next).pos) := by
        generalize (skipFactors (it.pos + 1) it.next).pos = z at *
        rw [show text.length - (it.pos + 1) = (z - (it.pos + 1)) + (text.length - z) by omega]
        rw [List.range'_append_1.symm]
        congr 2; omega
      rw [hsplit, List.filter_append]
      have h0 : (List.range' (it.pos + 1) ((skipFactors (it.pos + 1) it.next).pos - (it.pos + 1))).filter (fun q => decide (Uncovered it.next q)) = [] := by
        rw [List.filter_eq_nil_iff]
        intro q hq
        rw [List.mem_range'_1] at hq
        have := e q hq.1
        simp only [decide_eq_true_eq]
        intro hx
        have := (this.mp hx).1
        omega
      rw [h0, List.nil_append]
      congr 3
      refine (List.filter_congr ?_)
      intro q hq
      rw [List.mem_range'_1] at hq
      have := e q (by omega)
      simp only [decide_eq_decide]
      exact ⟨fun hx => this.mpr ⟨hq.1, hx⟩, fun hx => (this.mp hx).2⟩
    · rw [List.getElem?_eq_none (by omega), show text.length - it.pos = 0 by omega]
      simp

open Classical in
/-- **C34.** The literal iterator handed to the coder yields exactly the characters not covered by any factor, in text order
and with their positions. -/
theorem text_literals_spec (text : List UInt8) (fs : List Factor) (hord : FactorsOrdered text.length 0 fs) :
    textLiterals text fs = .ok (((List.range text.length).filter fun q => decide (Uncovered fs q)).filterMap
      fun q => text[q]?.map fun c => (c, q)) := by
  obtain ⟨a, b, c, d, e, g⟩ := skipFactors_spec fs 0 hord
  rw [textLiterals, litRun_spec text _ (.init fs) c g (by simp only [LitIter.init]; omega)]
  simp only [LitIter.init]
  generalize hz : (skipFactors 0 fs).pos = z at *
  congr 2
  rw [List.range_eq_range', show text.length = z + (text.length - z) by omega, ← List.range'_append_1, List.filter_append]
  have h0 : (List.range' 0 z).filter (fun q => decide (Uncovered fs q)) = [] := by
    rw [List.filter_eq_nil_iff]
    intro q hq
    rw [List.mem_range'_1] at hq
    simp only [decide_eq_true_eq]
    intro hx
    have := ((e q (Nat.zero_le _)).mp hx).1
    omega
  rw [h0, List.nil_append, Nat.zero_add]
  rw [show z + (text.length - z) - z = text.length - z by omega]
  refine (List.filter_congr ?_)
  intro q hq
  rw [List.mem_range'_1] at hq
  exact decide_eq_decide.mpr ⟨fun hx => (e q (by omega)).mpr ⟨hq.1, hx⟩, fun hx => ((e q (by omega)).mp hx).2⟩

theorem literalsOf_append (a b : List Token) : literalsOf (a ++ b) = literalsOf a ++ literalsOf b := by
  simp [literalsOf]

theorem literalsOf_lit (text : List UInt8) (p e : Nat) : literalsOf (litTokens text p e) = ((text.drop p).take (e - p)).map (·.toNat) := by
  simp only [literalsOf, litTokens]
  induction ((text.drop p).take (e - p)) with
  | nil => rfl
  | cons x xs ih => simp only [List.map_cons, List.filterMap_cons, if_true, ih]

open Classical in
theorem literalsOf_body (text : List UInt8) (fmin fmax fdist : Nat) (fs : List Factor) : ∀ p, FactorsOrdered text.length p fs →
    literalsOf (lzssBody text fmin fmax fdist fs p) = ((List.range' p (text.length - p)).filter fun q => decide (Uncovered fs q)).filterMap
      fun q => text[q]?.map (·.toNat) := by
  have hmap : ∀ (k p : Nat), p + k ≤ text.length → ((text.drop p).take k).map (·.toNat) = (List.range' p k).filterMap fun q => text[q]?.map (·.toNat) := by
    intro k
    induction k with
    | zero => intro p _; simp
    | succ k ih =>
      intro p hp
      rw [List.drop_eq_getElem_cons (by omega : p < text.length), List.take_succ_cons, List.map_cons, List.range'_succ, List.filterMap_cons,
        List.getElem?_eq_getElem (by omega : p < text.length)]
      simp only [Option.map_some, ih (p + 1) (by omega)]
  induction fs with
  | nil =>
    intro p h
    have h' : p ≤ text.length := h
    rw [lzssBody, literalsOf_append, literalsOf_lit, hmap _ _ (by omega)]
    have : literalsOf (if p < text.length then [(.bit, 1), (.range 0 fdist, text.length - p)] else []) = [] := by
      split <;> simp [literalsOf]
    rw [this, List.nil_append]
    congr 1
    symm
    rw [List.filter_eq_self]
    intro a _
    simp [Uncovered]
  | cons f fs ih =>
    intro p h
    obtain ⟨h1, h2, h3, h4⟩ := h
    rw [lzssBody, literalsOf_append, literalsOf_append, literalsOf_append, literalsOf_lit, hmap _ _ (by omega), Nat.max_eq_right h1, ih _ h4]
    have e1 : literalsOf (if f.pos = p then [(.bit, 0)] else [(.bit, 1), (.range 0 fdist, f.pos - p)]) = [] := by
      split <;> simp [literalsOf]
    have e2 : literalsOf [(.range 0 text.length, f.src), (.range fmin fmax, f.len)] = [] := by simp [literalsOf]
    rw [e1, e2, List.nil_append, List.append_nil]
    have e3 : List.range' p (text.length - p) = List.range' p (f.pos - p) ++ (List.range' f.pos f.len ++
        List.range' (f.pos + f.len) (text.length - (f.pos + f.len))) := by
      rw [List.range'_append_1]
      have := List.range'_append_1 (s := p) (m := f.pos - p) (n := f.len + (text.length - (f.pos + f.len)))
      rw [show p + (f.pos - p) = f.pos by omega] at this
      rw [this]
      congr 1
      omega
    have f1 : (List.range' p (f.pos - p)).filter (fun q => decide (Uncovered (f :: fs) q)) = List.range' p (f.pos - p) := by
      rw [List.filter_eq_self]
      intro q hq
      rw [List.mem_range'_1] at hq
      simp only [decide_eq_true_eq]
      intro g hg
      have := FactorsOrdered.ge (f :: fs) p ⟨h1, h2, h3, h4⟩ g hg
      rcases List.mem_cons.mp hg with rfl | hg
      · omega
      · have := FactorsOrdered.ge fs _ h4 g hg; omega
    have f2 : (List.range' f.pos f.len).filter (fun q => decide (Uncovered (f :: fs) q)) = [] := by
      rw [List.filter_eq_nil_iff]
      intro q hq
      rw [List.mem_range'_1] at hq
      simp only [decide_eq_true_eq]
      intro hx
      exact hx f (by simp) hq
    have f3 : (List.range' (f.pos + f.len) (text.length - (f.pos + f.len))).filter (fun q => decide (Uncovered (f :: fs) q)) =
        (List.range' (f.pos + f.len) (text.length - (f.pos + f.len))).filter (fun q => decide (Uncovered fs q)) := by
      refine List.filter_congr ?_
      intro q hq
      rw [List.mem_range'_1] at hq
      rw [decide_eq_decide]
      constructor
      · intro hx g hg; exact hx g (by simp [hg])
      · intro hx g hg
        rcases List.mem_cons.mp hg with rfl | hg
        · omega
        · exact hx g hg
    rw [e3, List.filter_append, List.filter_append, f1, f2, f3, List.nil_append, List.filterMap_append]

/-- **C34.** … and these are exactly the literals `encode_text` hands to the coder afterwards, in the same order (so a coder that
prepares itself from the iterator, like `huff`, sees the statistics of what it will have to encode). -/
theorem text_literals_announced (text : List UInt8) (fs : List Factor) (hord : FactorsOrdered text.length 0 fs) :
    ∃ ls, textLiterals text fs = .ok ls ∧ literalsOf (lzssEncode text fs) = ls.map fun x => x.1.toNat := by
  refine ⟨_, text_literals_spec text fs hord, ?_⟩
  have hh : literalsOf (lzssHeader text fs) = [] := by simp [literalsOf, lzssHeader]
  rw [lzssEncode, literalsOf_append, hh, List.nil_append, literalsOf_body text _ _ _ fs 0 hord, List.map_filterMap, List.range_eq_range',
    Nat.sub_zero]
  congr 1
  funext q
  cases text[q]? <;> rfl

/-- "abcabcX": one factor, the literals a, b, c, X remain -/
example : textLiterals [97, 98, 99, 97, 98, 99, 88] [⟨3, 0, 3⟩] = .ok [(97, 0), (98, 1), (99, 2), (88, 6)] ∧
    FactorsOrdered 7 0 [⟨3, 0, 3⟩] := ⟨by rfl, by simp [FactorsOrdered]⟩

end Tdc
