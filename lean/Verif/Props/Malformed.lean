import Verif.Props.EndToEnd

/-!
# C79: decompressing bytes that no compressor wrote

What `decompress` does with an arbitrary byte string: it delivers some text, it reports an error, or it hangs or leaves its arrays.
-/

namespace Tdc

/-- The call comes to an end without undefined behaviour: a text is delivered or an exception is thrown. -/
def Answers (r : Res (List UInt8)) : Prop := (∃ t, r = .ok t) ∨ r = .error .throw

theorem answers_ok (t : List UInt8) : Answers (.ok t) := Or.inl ⟨t, rfl⟩
theorem not_answers_ub : ¬ Answers (.error .ub) := by rintro (⟨t, h⟩ | h) <;> simp at h
theorem not_answers_loop : ¬ Answers (.error .loop) := by rintro (⟨t, h⟩ | h) <;> simp at h

/-! ## Coders -/

/-- The coder delivers a value for every stream, and takes at least one bit while there are any. -/
structure UCoder.Steady (c : UCoder) : Prop where
  total : ∀ r bs, ∃ v bs', c.dec r bs = .ok (v, bs') ∧ bs'.length ≤ bs.length ∧ (bs ≠ [] → bs'.length < bs.length)

theorem rdBit_len (bs : List Bool) : (rdBit bs).2.length ≤ bs.length ∧ (bs ≠ [] → (rdBit bs).2.length < bs.length) := by
  cases bs <;> simp [rdBit]

theorem rdInt_nil (w n : Nat) : rdInt w n [] = (0, []) := by
  have h : ∀ n acc, rdIntAcc w n (acc * 0) [] = (0, []) := by
    intro n
    induction n with
    | zero => intro acc; simp [rdIntAcc]
    | succ n ih => intro acc; simpa [rdIntAcc, rdBit] using ih 0
  simpa [rdInt] using h n 0

theorem rdDigits_total : ∀ (fuel : Nat) (bs : List Bool), bs.length < fuel →
    ∃ ds bs', rdDigits fuel bs = .ok (ds, bs') ∧ bs'.length ≤ bs.length ∧ (bs ≠ [] → bs'.length < bs.length) := by
  intro fuel
  induction fuel with
  | zero => intro bs h; omega
  | succ fuel ih =>
    intro bs h
    by_cases hb : bs = []
    · subst hb
      exact ⟨[], [], by simp [rdDigits, rdInt_nil], by simp, by simp⟩
    · have hl := rdInt_lt 8 8 bs (by omega) hb
      simp only [rdDigits]
      rcases hr : rdInt 8 8 bs with ⟨c, bs1⟩
      rw [hr] at hl
      simp only at hl ⊢
      split
      · obtain ⟨ds, bs', h1, h2, _⟩ := ih bs1 (by omega)
        rw [h1]
        exact ⟨_, bs', rfl, by omega, fun _ => by omega⟩
      · exact ⟨[], bs1, rfl, by omega, fun _ => hl⟩

theorem bitsFor_pos' (n : Nat) : 0 < bitsFor n := by
  unfold bitsFor bitsHi clz64
  split
  · omega
  · omega

/-- the fixed width coder and the decimal coder always deliver a value -/
theorem coder_steady (c : CoderName) (h : c = .bit ∨ c = .ascii) : c.coder.Steady := by
  constructor
  intro r bs
  have key : ∀ (w n : Nat) (f : Nat → Nat), 0 < n → ∃ v bs', (Except.ok (f (rdInt w n bs).1, (rdInt w n bs).2) : Res (Nat × List Bool)) = .ok (v, bs') ∧
      bs'.length ≤ bs.length ∧ (bs ≠ [] → bs'.length < bs.length) :=
    fun w n f hn => ⟨_, _, rfl, rdInt_le w n bs, fun hb => rdInt_lt w n bs hn hb⟩
  rcases h with rfl | rfl
  · cases r with
    | bit => exact ⟨_, _, rfl, (rdBit_len bs).1, (rdBit_len bs).2⟩
    | literal => exact key 64 (bitsFor (255 - 0)) (fun v => (0 + v) % 2 ^ 64) (bitsFor_pos' _)
    | range a b => exact key 64 (bitsFor (b - a)) (fun v => (a + v) % 2 ^ 64) (bitsFor_pos' _)
  · cases r with
    | bit => exact key 8 8 (fun b => if b ≠ 48 then 1 else 0) (by omega)
    | literal => exact key 8 8 (fun b => b) (by omega)
    | range a b =>
      obtain ⟨ds, bs', h1, h2, h3⟩ := rdDigits_total (bs.length + 1) bs (by omega)
      refine ⟨parseDec ds, bs', ?_, h2, h3⟩
      simp only [CoderName.coder, asciiCoder, h1]

/-- The codes that begin with a unary number never end on a stream that holds only zeros. -/
theorem coder_zeros_hang (c : CoderName) (h : c = .gamma ∨ c = .delta ∨ c = .ternary) (r : Rng) (hr : r ≠ .bit) (n : Nat) :
    c.coder.dec r (List.replicate n false) = .error .loop := by
  have hu : rdUnary (List.replicate n false) = .error .loop := by
    induction n with
    | zero => rfl
    | succ n ih => rw [List.replicate_succ, rdUnary, ih]
  have ht : ∀ (m v b : Nat), rdTernaryLoop 64 v b 0 (List.replicate m false) = .error .loop := by
    intro m
    induction m using Nat.strongRecOn with
    | _ m ih =>
      intro v b
      match m with
      | 0 => rfl
      | 1 => rfl
      | m + 2 =>
        rw [List.replicate_succ, List.replicate_succ]
        simp only [rdTernaryLoop, Bool.toNat_false]
        simpa using ih m (by omega) _ _
  have hi : rdInt 64 2 (List.replicate n false) = (0, List.replicate (n - 2) false) := by
    match n with
    | 0 => rfl
    | 1 => rfl
    | n + 2 =>
      rw [List.replicate_succ, List.replicate_succ]
      simp [rdInt, rdIntAcc, rdBit]
  rcases h with rfl | rfl | rfl
  · cases r with
    | bit => exact absurd rfl hr
    | literal => show rdGamma 64 _ = _; rw [rdGamma, hu]
    | range a b => show rdGamma 64 _ = _; rw [rdGamma, hu]
  · cases r with
    | bit => exact absurd rfl hr
    | literal => show rdDelta 64 _ = _; rw [rdDelta, rdGamma, hu]
    | range a b => show rdDelta 64 _ = _; rw [rdDelta, rdGamma, hu]
  · cases r with
    | bit => exact absurd rfl hr
    | literal => show rdTernary 64 _ = _; rw [rdTernary, hi]; simpa using ht _ _ _
    | range a b => show rdTernary 64 _ = _; rw [rdTernary, hi]; simpa using ht _ _ _

/-- bytes that are all zero: eight zero bits for each byte but the last, whose three low bits say that no bits of it are used -/
theorem bits_zeros (n : Nat) : bitsOf (List.replicate (n + 1) 0) = List.replicate (8 * n) false := by
  rw [bitsOf_eq_payload]
  induction n with
  | zero => rfl
  | succ n ih =>
    match n with
    | 0 => rfl
    | n + 1 =>
      rw [List.replicate_succ, List.replicate_succ] at ih ⊢
      rw [List.replicate_succ, payload, ih]
      have : byteBits 0 = List.replicate 8 false := rfl
      rw [this, List.replicate_append_replicate]
      congr 1
      omega

/-! ## The simple compressors -/

/-- `noop` delivers its input. -/
theorem noop_any_input (m d : Bool) (z : List UInt8) : noopRun m d z = z := rfl

theorem mtfShift_length : ∀ (j : Nat) (table : List UInt8), (mtfShift j table).length = table.length
  | 0, _ => rfl
  | j + 1, table => by rw [mtfShift, mtfShift_length j]; simp

/-- `mtf`: the table keeps its 256 entries, so that every byte of the input is an index into it, and the output is as long as the input. -/
theorem mtf_any_input (z : List UInt8) : (mtfDecode z).length = z.length ∧
    ∀ u v : List UInt8, z = u ++ v → (mtfLoop mtfDecodeChar mtfInit u).2.length = 256 := by
  have key : ∀ (u table : List UInt8), (mtfLoop mtfDecodeChar table u).1.length = u.length ∧ (mtfLoop mtfDecodeChar table u).2.length = table.length := by
    intro u
    induction u with
    | nil => intro table; simp [mtfLoop]
    | cons c cs ih =>
      intro table
      obtain ⟨h1, h2⟩ := ih (mtfDecodeChar c table).2
      simp only [mtfLoop, List.length_cons, h1, h2]
      simp [mtfDecodeChar, mtfShift_length]
  refine ⟨(key z mtfInit).1, fun u v _ => ?_⟩
  rw [(key u mtfInit).2]
  simp [mtfInit]

theorem literalLoop_total (c : UCoder) (h : c.Steady) : ∀ (fuel : Nat) (bs : List Bool), bs.length < fuel → ∃ t, literalLoop c fuel bs = .ok t := by
  intro fuel
  induction fuel with
  | zero => intro bs h; omega
  | succ fuel ih =>
    intro bs hl
    by_cases hb : bs = []
    · subst hb; exact ⟨[], by simp [literalLoop]⟩
    · obtain ⟨v, bs', h1, h2, h3⟩ := h.total .literal bs
      obtain ⟨t, ht⟩ := ih bs' (by have := h3 hb; omega)
      exact ⟨UInt8.ofNat v :: t, by simp [literalLoop, hb, h1, ht]⟩

/-- `encode` with the fixed width or the decimal coder delivers a text for every input. -/
theorem literal_any_input_partial (c : CoderName) (h : c = .bit ∨ c = .ascii) (z : List UInt8) : ∃ t, literalDecompress c.coder z = .ok t :=
  literalLoop_total _ (coder_steady c h) _ _ (by omega)

/-- With the other coders it hangs on two or more zero bytes. -/
theorem literal_zeros_hang (c : CoderName) (h : c = .gamma ∨ c = .delta ∨ c = .ternary) (n : Nat) :
    literalDecompress c.coder (List.replicate (n + 2) 0) = .error .loop := by
  have hne : List.replicate (8 * (n + 1)) false ≠ [] := by simp
  simp only [literalDecompress, bits_zeros, literalLoop, List.isEmpty_iff, hne, if_false, coder_zeros_hang c h .literal (by simp)]

/-! ## Run lengths -/

/-- ten bytes in a row that are all 128 or larger -/
def TenHigh (z : List UInt8) : Prop := ∃ u v w, z = u ++ v ++ w ∧ v.length = 10 ∧ ∀ b ∈ v, 128 ≤ b.toNat

theorem and128 (b : UInt8) (h : ¬ b.toNat &&& 128 = 0) : 128 ≤ b.toNat := by
  by_contra hc
  apply h
  apply Nat.eq_of_testBit_eq
  intro i
  simp only [Nat.testBit_and, Nat.zero_testBit, Bool.and_eq_false_iff]
  by_cases hi : i = 7
  · left; subst hi; exact Nat.testBit_lt_two_pow (by omega)
  · right; rw [show (128 : Nat) = 2 ^ 7 by rfl, Nat.testBit_two_pow]; simp; omega

theorem readVByte_any (w : Nat) : ∀ (bs hi : List UInt8) (ret : Nat), hi.length ≤ 10 → (∀ b ∈ hi, 128 ≤ b.toNat) → ¬ TenHigh (hi ++ bs) →
    ∃ v bs', readVByteAux w ret hi.length bs = .ok (v, bs') ∧ bs' <:+ bs := by
  intro bs
  induction bs with
  | nil =>
    intro hi ret hl hh hn
    have : hi.length ≠ 10 := fun h => hn ⟨[], hi, [], by simp, h, hh⟩
    exact ⟨0, [], by simp [readVByteAux]; omega, List.suffix_refl _⟩
  | cons b bs ih =>
    intro hi ret hl hh hn
    have : hi.length ≠ 10 := fun h => hn ⟨[], hi, b :: bs, by simp, h, hh⟩
    simp only [readVByteAux, if_neg (show ¬ 7 * hi.length ≥ 64 by omega)]
    split
    · exact ⟨_, bs, rfl, List.suffix_cons b bs⟩
    · rename_i hb
      have := ih (hi ++ [b]) (ret ||| (((b.toNat &&& 127) <<< (7 * hi.length)) % 2 ^ w)) (by simp; omega)
        (by intro x hx; rcases List.mem_append.mp hx with hx | hx
            · exact hh x hx
            · rw [List.mem_singleton.mp hx]; exact and128 b hb) (by simpa using hn)
      obtain ⟨v, bs', h1, h2⟩ := this
      exact ⟨v, bs', by simpa using h1, h2.trans (List.suffix_cons b bs)⟩

theorem rleDecLoop_any (o : Nat) : ∀ (fuel : Nat) (prev : UInt8) (z : List UInt8), z.length ≤ fuel → ¬ TenHigh z → ∃ t, rleDecLoop o fuel prev z = .ok t := by
  have sub : ∀ {a b : List UInt8}, a <:+ b → ¬ TenHigh b → ¬ TenHigh a := by
    rintro a b ⟨p, rfl⟩ hn ⟨u, v, w, rfl, h⟩
    exact hn ⟨p ++ u, v, w, by simp, h⟩
  intro fuel
  induction fuel with
  | zero => intro prev z h hn; match z, h with | [], _ => exact ⟨[], rfl⟩
  | succ fuel ih =>
    intro prev z h hn
    match z with
    | [] => exact ⟨[], rfl⟩
    | c :: rest =>
      have hr : ¬ TenHigh rest := sub (List.suffix_cons c rest) hn
      simp only [List.length_cons] at h
      simp only [rleDecLoop]
      split
      · obtain ⟨v, bs', h1, h2⟩ := readVByte_any 64 rest [] 0 (by simp) (by simp) (by simpa using hr)
        obtain ⟨t, ht⟩ := ih c bs' (by have := h2.length_le; omega) (sub h2 hr)
        rw [show readVByte 64 rest = .ok (v, bs') from h1]
        simp only [ht]
        exact ⟨_, rfl⟩
      · obtain ⟨t, ht⟩ := ih c rest (by omega) hr
        rw [ht]
        exact ⟨_, rfl⟩

/-- `rle` delivers a text for every input without ten bytes in a row that are 128 or larger. -/
theorem rle_any_input_partial (o : Nat) (z : List UInt8) (h : ¬ TenHigh z) : ∃ t, rleDecode o z = .ok t := by
  match z with
  | [] => exact ⟨[], rfl⟩
  | c :: rest =>
    obtain ⟨t, ht⟩ := rleDecLoop_any o rest.length c rest (Nat.le_refl _) (by
      rintro ⟨u, v, w, rfl, h'⟩
      exact h ⟨c :: u, v, w, by simp, h'⟩)
    exact ⟨c :: t, by rw [rleDecode, ht]⟩

/-- Ten such bytes after two equal ones are undefined behaviour: the shift of `read_vbyte` is too wide. -/
theorem rle_shift_broken (o : Nat) (c : UInt8) (hi w : List UInt8) (hl : hi.length = 10) (hh : ∀ b ∈ hi, 128 ≤ b.toNat) :
    rleDecode o (c :: c :: (hi ++ w)) = .error .ub := by
  have key : ∀ (l : List UInt8) (k ret : Nat), (∀ b ∈ l, 128 ≤ b.toNat) → l.length + k = 10 → readVByteAux 64 ret k (l ++ w) = .error .ub := by
    intro l
    induction l with
    | nil =>
      intro k ret _ hk
      obtain rfl : k = 10 := by simpa using hk
      cases w <;> simp [readVByteAux]
    | cons b l ih =>
      intro k ret hb hk
      simp only [List.length_cons] at hk
      have h128 : ¬ b.toNat &&& 128 = 0 := by
        have h1 := hb b (by simp)
        have h2 := b.toNat_lt
        intro h0
        have : (b.toNat &&& 128).testBit 7 = true := by
          rw [Nat.testBit_and, show (128 : Nat) = 2 ^ 7 by rfl, Nat.testBit_two_pow_self, Bool.and_true]
          rw [Nat.testBit_eq_decide_div_mod_eq]
          simp; omega
        rw [h0] at this
        simp at this
      simp only [List.cons_append, readVByteAux, h128, if_false]
      split
      · rfl
      · exact ih _ _ (fun x hx => hb x (by simp [hx])) (by omega)
  simp only [rleDecode, List.length_cons, rleDecLoop, if_true, readVByte, key hi 0 0 hh (by omega)]

/-- A run length that is missing counts as 0, from which the offset is subtracted: three bytes stand for more than all memory. -/
theorem rle_truncated_explodes (o : Nat) (ho : 0 < o) (ho' : o < 2 ^ 64) (c : UInt8) : ∃ t, rleDecode o [c, c] = .ok t ∧ t.length = 2 ^ 64 - o + 2 := by
  have h : (2 ^ 64 - o % 2 ^ 64) % 2 ^ 64 = 2 ^ 64 - o := by omega
  refine ⟨c :: (List.replicate (2 ^ 64 - o) c ++ [c]), ?_, by simp⟩
  simp only [rleDecode, List.length_cons, List.length_nil, rleDecLoop, if_true, readVByte, readVByteAux]
  simp only [Nat.mul_zero, ge_iff_le, Nat.le_zero_eq, OfNat.ofNat_ne_zero, if_false, Nat.zero_add, h]
  rfl

/-! ## Burrows-Wheeler -/

theorem bwtLF_lt (bwt : List UInt8) (i : Nat) (hi : i < bwt.length) : ∃ k, (bwtLF bwt)[i]? = some k ∧ k < bwt.length := by
  have hc : bwt[i]? = some bwt[i] := List.getElem?_eq_getElem hi
  refine ⟨_, bwtLFLoop_spec bwt _ i bwt[i] hc, ?_⟩
  have hsplit : bwt.countP (fun x => x == bwt[i]) = (bwt.take i).count bwt[i] + (bwt.drop i).count bwt[i] := by
    rw [← List.count_append, List.take_append_drop]; rfl
  have hpos : 0 < (bwt.drop i).count bwt[i] := by
    rw [List.count_pos_iff, List.drop_eq_getElem_cons hi]; exact List.mem_cons_self
  have hadd : ∀ P : UInt8 → Bool, P bwt[i] = false → bwt.countP P + bwt.countP (fun x => x == bwt[i]) ≤ bwt.length := by
    intro P hP
    generalize bwt[i] = a at hP
    clear hc hsplit hpos hi
    induction bwt with
    | nil => simp
    | cons x xs ih =>
      simp only [List.countP_cons, List.length_cons]
      by_cases hx : x = a
      · subst hx; simp [hP]; omega
      · have : (x == a) = false := by simpa using hx
        rw [this]; split <;> simp <;> omega
  by_cases h255 : bwt[i].toNat = 255
  · rw [h255, (bwtC_spec bwt).2]
    have := hadd (fun x => decide (x.toNat = 254)) (by simp [h255])
    omega
  · have hlt : bwt[i].toNat < 255 := by have := bwt[i].toNat_lt; omega
    rw [(bwtC_spec bwt).1 _ hlt]
    have := hadd (fun x => decide (x.toNat < bwt[i].toNat)) (by simp)
    omega

/-- `bwt` delivers a text for every input: its walk through the LF array never leaves it. -/
theorem bwt_any_input (z : List UInt8) : ∃ t, bwtDecompress z = .ok t := by
  have key : ∀ (k i : Nat) (acc : List UInt8), i < z.length → ∃ t, bwtDecLoop z (bwtLF z) k i acc = .ok t := by
    intro k
    induction k with
    | zero => intro i acc _; exact ⟨acc, rfl⟩
    | succ k ih =>
      intro i acc hi
      obtain ⟨j, h1, h2⟩ := bwtLF_lt z i hi
      simp only [bwtDecLoop, vget, List.getElem?_eq_getElem hi, h1]
      exact ih j _ h2
  have : ∃ s, decodeBwt z = .ok s := by
    unfold decodeBwt
    split
    · exact ⟨[], rfl⟩
    · exact key _ 0 [] (by omega)
  obtain ⟨s, hs⟩ := this
  rw [bwtDecompress, hs]
  exact ⟨_, rfl⟩

/-! ## LZ78 -/

/-- The pairs of reference and character that a stream of bits holds, from the factor with number `fc` on. -/
inductive Pairs78 (c : UCoder) : Nat → List Bool → List (Nat × UInt8) → Prop where
  | nil (fc : Nat) : Pairs78 c fc [] []
  | cons (fc : Nat) (bs bs1 bs2 : List Bool) (i v : Nat) (l : List (Nat × UInt8)) : bs ≠ [] → c.dec (.range 0 fc) bs = .ok (i, bs1) →
      c.dec .literal bs1 = .ok (v, bs2) → Pairs78 c (fc + 1) bs2 l → Pairs78 c fc bs ((i % 2 ^ 32, UInt8.ofNat v) :: l)

/-- every stream holds some -/
theorem pairs78_exist (c : UCoder) (h : c.Steady) : ∀ (n fc : Nat) (bs : List Bool), bs.length ≤ n → ∃ l, Pairs78 c fc bs l := by
  intro n
  induction n with
  | zero =>
    intro fc bs hl
    obtain rfl : bs = [] := List.length_eq_zero_iff.mp (by omega)
    exact ⟨[], .nil fc⟩
  | succ n ih =>
    intro fc bs hl
    by_cases hb : bs = []
    · subst hb; exact ⟨[], .nil fc⟩
    · obtain ⟨i, bs1, h1, _, h3⟩ := h.total (.range 0 fc) bs
      obtain ⟨v, bs2, h4, h5, _⟩ := h.total .literal bs1
      have := h3 hb
      obtain ⟨l, hl⟩ := ih (fc + 1) bs2 (by omega)
      exact ⟨_, .cons fc bs bs1 bs2 i v l hb h1 h4 hl⟩

theorem lz78Chain_back (I : List Nat) (L : List UInt8) (hL : L.length = I.length) (hI : ∀ j i : Nat, I[j]? = some i → i ≤ j) :
    ∀ (fuel i : Nat) (ch : UInt8) (buf : List UInt8), i < fuel → i ≤ I.length → ∃ s, lz78Chain I L fuel i ch buf = .ok s := by
  intro fuel
  induction fuel with
  | zero => intro i ch buf h; omega
  | succ fuel ih =>
    intro i ch buf h1 h2
    by_cases hi : i = 0
    · exact ⟨_, by rw [lz78Chain, if_pos hi]⟩
    · have e1 : L[i - 1]? = some (L[i - 1]'(by omega)) := List.getElem?_eq_getElem _
      have e2 : I[i - 1]? = some (I[i - 1]'(by omega)) := List.getElem?_eq_getElem _
      have := hI _ _ e2
      simp only [lz78Chain, if_neg hi, vget, e1, e2]
      exact ih _ _ _ (by omega) (by omega)

theorem lz78Chain_self (I : List Nat) (L : List UInt8) (i : Nat) (hi : I[i]? = some (i + 1)) : ∀ (fuel : Nat) (ch : UInt8) (buf : List UInt8),
    ∃ e, lz78Chain I L fuel (i + 1) ch buf = .error e ∧ e ≠ .throw := by
  intro fuel
  induction fuel with
  | zero => intro ch buf; exact ⟨.loop, rfl, by simp⟩
  | succ fuel ih =>
    intro ch buf
    simp only [lz78Chain, Nat.add_eq_zero_iff, Nat.one_ne_zero, and_false, if_false, Nat.add_sub_cancel, vget, hi]
    cases hL : L[i]? with
    | none => exact ⟨.ub, rfl, by simp⟩
    | some l => exact ih _ _

theorem lz78DecLoop_pairs (c : UCoder) (h : c.Steady) : ∀ (fuel fc : Nat) (bs : List Bool) (l : List (Nat × UInt8)) (I : List Nat) (L : List UInt8),
    Pairs78 c fc bs l → bs.length < fuel → I.length = fc → L.length = fc → (∀ j i : Nat, I[j]? = some i → i ≤ j) →
    ((∀ (j : Nat) (p : Nat × UInt8), l[j]? = some p → p.1 ≤ fc + j) → ∃ t, lz78DecLoop c fuel bs I L fc = .ok t) ∧
    ((∃ (j : Nat) (p : Nat × UInt8), l[j]? = some p ∧ fc + j < p.1) → ∃ e, lz78DecLoop c fuel bs I L fc = .error e ∧ e ≠ .throw) := by
  intro fuel
  induction fuel with
  | zero => intro fc bs l I L _ h; omega
  | succ fuel ih =>
    intro fc bs l I L hp hl hIl hLl hI
    cases hp with
    | nil => exact ⟨fun _ => ⟨[], by simp [lz78DecLoop]⟩, by rintro ⟨j, p, hj, _⟩; simp at hj⟩
    | cons _ _ bs1 bs2 i v l hb h1 h2 hp =>
      have hlen : bs2.length < bs.length := by
        obtain ⟨_, _, e1, _, e3⟩ := h.total (.range 0 fc) bs
        obtain ⟨_, _, e4, e5, _⟩ := h.total .literal bs1
        rw [h1] at e1; rw [h2] at e4
        simp only [Except.ok.injEq, Prod.mk.injEq] at e1 e4
        have := e3 hb
        rw [← e1.2] at this; rw [← e4.2] at e5
        omega
      simp only [lz78DecLoop, List.isEmpty_iff, hb, if_false, h1, h2, List.length_append, List.length_singleton]
      generalize hx : i % 2 ^ 32 = x at hp ⊢
      by_cases hle : x ≤ fc
      · have hI' : ∀ j i : Nat, (I ++ [x])[j]? = some i → i ≤ j := by
          intro j i' hj
          rcases Nat.lt_trichotomy j I.length with hlt | heq | hgt
          · rw [List.getElem?_append_left hlt] at hj; exact hI j i' hj
          · subst heq; simp at hj; omega
          · rw [List.getElem?_eq_none (by simp; omega)] at hj; simp at hj
        obtain ⟨s, hs⟩ := lz78Chain_back (I ++ [x]) (L ++ [UInt8.ofNat v]) (by simp; omega) hI' (I.length + 1 + 1) x (UInt8.ofNat v) [] (by omega) (by simp; omega)
        obtain ⟨ih1, ih2⟩ := ih (fc + 1) bs2 l (I ++ [x]) (L ++ [UInt8.ofNat v]) hp (by omega) (by simp; omega) (by simp; omega) hI'
        simp only [hs]
        constructor
        · intro hall
          obtain ⟨t, ht⟩ := ih1 (fun j p hj => by have := hall (j + 1) p (by simpa using hj); omega)
          rw [ht]; exact ⟨_, rfl⟩
        · rintro ⟨j, p, hj, hlt⟩
          match j with
          | 0 => simp only [List.getElem?_cons_zero, Option.some.injEq] at hj; subst hj; simp only at hlt; omega
          | j + 1 =>
            obtain ⟨e, he, he'⟩ := ih2 ⟨j, p, by simpa using hj, by omega⟩
            rw [he]; exact ⟨e, rfl, he'⟩
      · have hbad : ∃ e, lz78Chain (I ++ [x]) (L ++ [UInt8.ofNat v]) (I.length + 1 + 1) x (UInt8.ofNat v) [] = .error e ∧ e ≠ .throw := by
          by_cases hself : x = fc + 1
          · subst hself
            exact lz78Chain_self _ _ fc (by rw [← hIl]; simp) _ _ _
          · refine ⟨.ub, ?_, by simp⟩
            have e : (L ++ [UInt8.ofNat v])[x - 1]? = none := List.getElem?_eq_none (by simp; omega)
            simp only [lz78Chain, if_neg (show ¬ x = 0 by omega), vget, e]
        obtain ⟨e, he, he'⟩ := hbad
        simp only [he]
        constructor
        · intro hall
          have := hall 0 _ List.getElem?_cons_zero
          simp only at this; omega
        · intro _; exact ⟨e, rfl, he'⟩

/-- `lz78` with the fixed width or the decimal coder delivers a text exactly if no factor of the input refers to itself or to a later one; otherwise it
never reports an error. -/
theorem lz78_any_input_partial (c : CoderName) (hc : c = .bit ∨ c = .ascii) (z : List UInt8) : ∃ l, Pairs78 c.coder 0 (bitsOf z) l ∧
    ((∀ (j : Nat) (p : Nat × UInt8), l[j]? = some p → p.1 ≤ j) → ∃ t, lz78Decompress c.coder z = .ok t) ∧
    ((∃ (j : Nat) (p : Nat × UInt8), l[j]? = some p ∧ j < p.1) → ¬ Answers (lz78Decompress c.coder z)) := by
  obtain ⟨l, hl⟩ := pairs78_exist c.coder (coder_steady c hc) _ 0 (bitsOf z) (Nat.le_refl _)
  obtain ⟨h1, h2⟩ := lz78DecLoop_pairs c.coder (coder_steady c hc) ((bitsOf z).length + 1) 0 (bitsOf z) l [] [] hl (by omega) rfl rfl (by simp)
  refine ⟨l, hl, fun h => h1 (by simpa using h), fun h => ?_⟩
  obtain ⟨e, he, he'⟩ := h2 (by simpa using h)
  rintro (⟨t, ht⟩ | ht)
  · rw [lz78Decompress, he] at ht; simp at ht
  · rw [lz78Decompress, he] at ht
    simp only [Except.error.injEq] at ht
    exact he' ht

/-- Two bytes are enough: the first factor refers to itself. -/
theorem lz78_malformed_hangs : lz78Decompress bitCoder [255, 255] = .error .loop := by decide +kernel

/-- and with the other coders, two or more zero bytes -/
theorem lz78_zeros_hang (c : CoderName) (h : c = .gamma ∨ c = .delta ∨ c = .ternary) (n : Nat) :
    lz78Decompress c.coder (List.replicate (n + 2) 0) = .error .loop := by
  have hne : List.replicate (8 * (n + 1)) false ≠ [] := by simp
  simp only [lz78Decompress, bits_zeros, lz78DecLoop, List.isEmpty_iff, hne, if_false, coder_zeros_hang c h (.range 0 0) (by simp)]

/-! ## LZW -/

theorem lzwRebuild_ok (dms : Nat) (D : List (Nat × UInt8)) (hD : ∀ (j : Nat) (p : Nat × UInt8), D[j]? = some p → p.1 = dms ∨ p.1 < j) (hd : D.length ≤ dms) :
    ∀ (fuel k : Nat) (acc : List UInt8), k < D.length → k + 1 < fuel → ∃ c s, lzwRebuild dms D fuel k acc = .ok (c :: s) := by
  intro fuel
  induction fuel with
  | zero => intro k acc _ h; omega
  | succ fuel ih =>
    intro k acc hk hf
    have e : D[k]? = some D[k] := List.getElem?_eq_getElem hk
    simp only [lzwRebuild, if_neg (show ¬ k = dms by omega), vget, e]
    rcases hD k _ e with h | h
    · match fuel, hf with
      | fuel + 1, _ => rw [lzwRebuild, if_pos h]; exact ⟨_, _, rfl⟩
    · exact ih _ _ (by omega) (by omega)

theorem lzwDecLoop_any (c : UCoder) (h : c.Steady) (dms : Nat) : ∀ (fuel : Nat) (bs : List Bool) (D : List (Nat × UInt8)) (i ctr : Nat), bs.length < fuel →
    D.length + bs.length < dms → i < D.length → (∀ (j : Nat) (p : Nat × UInt8), D[j]? = some p → p.1 = dms ∨ p.1 < j) →
    Answers (lzwDecLoop c dms fuel bs D i ctr) := by
  intro fuel
  induction fuel with
  | zero => intro bs D i ctr h; omega
  | succ fuel ih =>
    intro bs D i ctr hl hd hi hD
    simp only [lzwDecLoop, if_neg (show ¬ D.length = dms by omega)]
    by_cases hb : bs = []
    · subst hb; exact answers_ok []
    simp only [List.isEmpty_iff, hb, if_false]
    obtain ⟨k, bs', h1, h2, h3⟩ := h.total (.range 0 (ctr + 256)) bs
    have h3 := h3 hb
    simp only [h1]
    generalize k % 2 ^ 32 = k
    have app : ∀ ch : UInt8, ∀ (j : Nat) (p : Nat × UInt8), (D ++ [(i, ch)])[j]? = some p → p.1 = dms ∨ p.1 < j := by
      intro ch j p hj
      rcases Nat.lt_trichotomy j D.length with hlt | heq | hgt
      · rw [List.getElem?_append_left hlt] at hj; exact hD j p hj
      · subst heq; simp at hj; subst hj; right; exact hi
      · rw [List.getElem?_eq_none (by simp; omega)] at hj; simp at hj
    have fin : ∀ (D' : List (Nat × UInt8)) (s : List UInt8), D'.length ≤ D.length + 1 → k < D'.length →
        (∀ (j : Nat) (p : Nat × UInt8), D'[j]? = some p → p.1 = dms ∨ p.1 < j) →
        Answers (match lzwDecLoop c dms fuel bs' D' k (ctr + 1) with | .error e => .error e | .ok t => .ok (s ++ t)) := by
      intro D' s hl' hk hD'
      rcases ih bs' D' k (ctr + 1) (by omega) (by omega) hk hD' with ⟨t, ht⟩ | ht
      · rw [ht]; exact answers_ok _
      · rw [ht]; exact Or.inr rfl
    unfold lzwStep
    by_cases hk : k > D.length
    · simp only [if_pos hk]; exact Or.inr rfl
    · simp only [if_neg hk]
      by_cases hk2 : k = D.length
      · simp only [if_pos hk2]
        obtain ⟨a, s, hs⟩ := lzwRebuild_ok dms D hD (by omega) (D.length + 1) i [] hi (by omega)
        obtain ⟨a', s', hs'⟩ := lzwRebuild_ok dms (D ++ [(i, a)]) (app a) (by simp; omega) ((D ++ [(i, a)]).length + 1) k [] (by simp; omega) (by simp; omega)
        simp only [hs, lzwFront, hs', reduceCtorEq, if_false]
        exact fin _ _ (by simp) (by simp; omega) (app a)
      · simp only [if_neg hk2]
        obtain ⟨a, s, hs⟩ := lzwRebuild_ok dms D hD (by omega) (D.length + 1) k [] (by omega) (by omega)
        simp only [hs, lzwFront, if_pos (show i ≠ dms by omega)]
        exact fin _ _ (by simp) (by simp; omega) (app a)

/-- `lzw` with the fixed width or the decimal coder delivers a text or reports an error, unless the first code of the input is 256, which is undefined
behaviour. -/
theorem lzw_any_input_partial (c : CoderName) (hc : c = .bit ∨ c = .ascii) (z : List UInt8) (hz : 8 * z.length + 300 < 2 ^ 32) :
    Answers (lzwDecompress c.coder 0 z) ↔ ¬ (bitsOf z ≠ [] ∧ ∃ k bs, c.coder.dec (.range 0 256) (bitsOf z) = .ok (k, bs) ∧ k % 2 ^ 32 = 256) := by
  have hlen : (bitsOf z).length ≤ 8 * z.length := by rw [bitsOf_eq_payload]; exact BitI.payload_length z
  have hR : (lzwRoots undefId).length = 256 := by simp [lzwRoots]
  have hRD : ∀ (j : Nat) (p : Nat × UInt8), (lzwRoots undefId)[j]? = some p → p.1 = undefId ∨ p.1 < j := by
    intro j p hj
    left
    have := List.mem_of_getElem? hj
    simp only [lzwRoots, List.mem_map] at this
    obtain ⟨_, _, rfl⟩ := this
    rfl
  have hund : undefId = 2 ^ 32 - 1 := rfl
  by_cases hb : bitsOf z = []
  · have : lzwDecompress c.coder 0 z = .ok [] := by
      simp only [lzwDecompress, hb, if_true, List.length_nil, lzwDecLoop, List.isEmpty_nil, hR]
    rw [this]
    exact ⟨fun _ h => h.1 hb, fun _ => answers_ok []⟩
  obtain ⟨k, bs', h1, h2, h3⟩ := (coder_steady c hc).total (.range 0 256) (bitsOf z)
  have h3 := h3 hb
  have hrun : lzwDecompress c.coder 0 z = (match lzwStep undefId (lzwRoots undefId) undefId (k % 2 ^ 32) with
      | .error e => .error e
      | .ok (D, s) =>
        match lzwDecLoop c.coder undefId (bitsOf z).length bs' D (k % 2 ^ 32) 1 with
        | .error e => .error e
        | .ok t => .ok (s ++ t)) := by
    simp only [lzwDecompress, if_true, lzwDecLoop, hR, if_neg (show ¬ 256 = undefId by decide), List.isEmpty_iff, hb, if_false, Nat.zero_add, h1]
    cases lzwStep undefId (lzwRoots undefId) undefId (k % 2 ^ 32) <;> rfl
  rw [hrun]
  by_cases h256 : k % 2 ^ 32 = 256
  · rw [h256]
    have : lzwStep undefId (lzwRoots undefId) undefId 256 = .error .ub := by
      have reb : ∀ n, lzwRebuild undefId (lzwRoots undefId) (n + 1) undefId [] = .ok [] := fun n => by rw [lzwRebuild, if_pos rfl]
      rw [lzwStep, hR, if_neg (show ¬ 256 > 256 by omega), if_pos rfl, reb 256]
      rfl
    rw [this]
    exact ⟨fun h => absurd h not_answers_ub, fun h => absurd ⟨hb, k, bs', h1, h256⟩ h⟩
  · refine ⟨fun _ h => ?_, fun _ => ?_⟩
    · obtain ⟨_, k', bs'', h4, h5⟩ := h
      rw [h1] at h4
      simp only [Except.ok.injEq, Prod.mk.injEq] at h4
      exact h256 (h4.1 ▸ h5)
    · by_cases hgt : k % 2 ^ 32 > 256
      · have : lzwStep undefId (lzwRoots undefId) undefId (k % 2 ^ 32) = .error .throw := by simp only [lzwStep, hR, if_pos hgt]
        rw [this]; exact Or.inr rfl
      · have hlt : k % 2 ^ 32 < 256 := by omega
        obtain ⟨a, s, hs⟩ := lzwRebuild_ok undefId _ hRD (by rw [hR]; decide) (256 + 1) (k % 2 ^ 32) [] (by rw [hR]; exact hlt) (by omega)
        have : lzwStep undefId (lzwRoots undefId) undefId (k % 2 ^ 32) = .ok (lzwRoots undefId, a :: s) := by
          simp only [lzwStep, hR, if_neg hgt, if_neg h256, hs, lzwFront, ne_eq, not_true_eq_false, if_false]
        rw [this]
        simp only []
        rcases lzwDecLoop_any c.coder (coder_steady c hc) undefId (bitsOf z).length bs' (lzwRoots undefId) (k % 2 ^ 32) 1 (by omega) (by rw [hR]; omega)
            (by rw [hR]; exact hlt) hRD with ⟨t, ht⟩ | ht
        · rw [ht]; exact answers_ok _
        · rw [ht]; exact Or.inr rfl

/-- two bytes whose first nine bits are the code 256 -/
theorem lzw_malformed_broken : lzwDecompress bitCoder 0 [128, 7] = .error .ub := by decide +kernel

/-- and with the other coders, two or more zero bytes hang -/
theorem lzw_zeros_hang (c : CoderName) (h : c = .gamma ∨ c = .delta ∨ c = .ternary) (n : Nat) :
    lzwDecompress c.coder 0 (List.replicate (n + 2) 0) = .error .loop := by
  have hne : List.replicate (8 * (n + 1)) false ≠ [] := by simp
  have hR : (lzwRoots undefId).length = 256 := by simp [lzwRoots]
  simp only [lzwDecompress, bits_zeros, if_true, lzwDecLoop, hR, if_neg (show ¬ 256 = undefId by decide), List.isEmpty_iff, hne, if_false,
    coder_zeros_hang c h (.range 0 (0 + 256)) (by simp)]

/-! ## LZSS with a sliding window -/

theorem copyFrom_any (n : Nat) : ∀ (out : List UInt8) (src : Nat), (∃ t, copyFrom out src n = .ok t) ∨ copyFrom out src n = .error .ub := by
  induction n with
  | zero => intro out src; exact Or.inl ⟨out, rfl⟩
  | succ n ih =>
    intro out src
    simp only [copyFrom, vget]
    cases out[src]? with
    | none => exact Or.inr rfl
    | some a => exact ih _ _

theorem winDecLoop_ends (c : UCoder) (h : c.Steady) (w : Nat) : ∀ (fuel : Nat) (bs : List Bool) (text : List UInt8), bs.length < fuel →
    (∃ t, winDecLoop c w fuel bs text = .ok t) ∨ winDecLoop c w fuel bs text = .error .ub := by
  intro fuel
  induction fuel with
  | zero => intro bs text h; omega
  | succ fuel ih =>
    intro bs text hl
    by_cases hb : bs = []
    · subst hb; exact Or.inl ⟨text, by simp [winDecLoop]⟩
    obtain ⟨f, b1, h1, _, h3⟩ := h.total .bit bs
    have h3 := h3 hb
    simp only [winDecLoop, List.isEmpty_iff, hb, if_false, h1]
    split
    · obtain ⟨d, b2, h4, h5, _⟩ := h.total (.range 0 text.length) b1
      obtain ⟨m, b3, h6, h7, _⟩ := h.total (.range 0 w) b2
      simp only [h4, h6]
      rcases copyFrom_any m text ((text.length + 2 ^ 64 - d) % 2 ^ 64) with ⟨t, ht⟩ | ht
      · rw [ht]; exact ih b3 t (by omega)
      · rw [ht]; exact Or.inr rfl
    · obtain ⟨v, b2, h4, h5, _⟩ := h.total .literal b1
      simp only [h4]
      exact ih b2 _ (by omega)

/-- `lzss` with the fixed width or the decimal coder always comes to an end; it never reports an error. -/
theorem lzss_any_input_partial (c : CoderName) (hc : c = .bit ∨ c = .ascii) (w : Nat) (z : List UInt8) :
    (∃ t, winDecompress c.coder w z = .ok t) ∨ winDecompress c.coder w z = .error .ub :=
  winDecLoop_ends _ (coder_steady c hc) w _ _ _ (by omega)

/-- A factor that comes first has nothing to copy. -/
theorem lzss_malformed_broken : winDecompress bitCoder 16 [255, 255] = .error .ub := by decide +kernel

/-- With the other coders: two or more zero bytes hang. -/
theorem lzss_zeros_hang (c : CoderName) (h : c = .gamma ∨ c = .delta ∨ c = .ternary) (w n : Nat) :
    winDecompress c.coder w (List.replicate (n + 2) 0) = .error .loop := by
  have hne : List.replicate (8 * (n + 1)) false ≠ [] := by simp
  have hbit : ∀ m, c.coder.dec .bit (List.replicate (m + 1) false) = .ok (0, List.replicate m false) := by
    intro m; rcases h with rfl | rfl | rfl <;> rfl
  have e : 8 * (n + 1) = (8 * n + 7) + 1 := by omega
  simp only [winDecompress, bits_zeros, winDecLoop, List.isEmpty_iff, hne, if_false]
  simp only [e, hbit, ne_eq, not_true_eq_false, if_false, coder_zeros_hang c h .literal (by simp)]

/-! ## The other decompressors -/

/-- None of the others checks its input either: with the fixed width coder there are files on which they leave their arrays or hang. (`repair`: one rule
that refers to itself.) -/
theorem others_malformed_broken :
    lzssLcpDecompress bitCoder [0, 0, 0, 0, 7, 255, 7] = .error .ub ∧
    LC.lcpDecompress bitCoder .compact [0, 0, 0, 0, 7, 255, 7] = .error .ub ∧
    U78.decompress bitCoder bitCoder [255, 255] = .error .loop ∧
    Esp.decompress [255, 255] = .error .ub ∧
    RePair.decompress bitCoder [0, 0, 0, 1, 140, 53] = .error .loop ∧
    litHuffDecompress [255, 255] = .error .ub := by decide +kernel

/-- With a coder whose codes begin with a unary number they hang on two or more zero bytes. -/
theorem others_zeros_hang (c c2 : CoderName) (h : c = .gamma ∨ c = .delta ∨ c = .ternary) (n : Nat) :
    lzssLcpDecompress c.coder (List.replicate (n + 2) 0) = .error .loop ∧
    U78.decompress c.coder c2.coder (List.replicate (n + 2) 0) = .error .loop ∧
    RePair.decompress c.coder (List.replicate (n + 2) 0) = .error .loop := by
  have hne : List.replicate (8 * (n + 1)) false ≠ [] := by simp
  refine ⟨?_, ?_, ?_⟩
  · simp only [lzssLcpDecompress, lzssDecodeBack, lzssDecode, bits_zeros, coder_zeros_hang c h (.range 0 (2 ^ 32 - 1)) (by simp)]
  · simp only [U78.decompress, U78.decBits, bits_zeros, U78.decLoop, List.isEmpty_iff, hne, if_false, coder_zeros_hang c h (.range 0 0) (by simp), List.length_nil]
    rfl
  · simp only [RePair.decompress, RePair.decBits, bits_zeros, coder_zeros_hang c h (.range 0 (2 ^ 32 - 1)) (by simp)]
    rfl

/-! ## Through the driver -/

/-- The algorithms that deliver a text for every input, and the chains of them. -/
def Algo.Sturdy : Algo → Prop
  | .noop _ _ => True
  | .mtf => True
  | .bwt => True
  | .literal (.plain c) => c = .bit ∨ c = .ascii
  | .chain a b => a.Sturdy ∧ b.Sturdy
  | _ => False

theorem leaf_plain_any {ps : Nat} (hps : 0 < ps) (rc rd : Reading) (c : List UInt8 → Res (List UInt8)) (d : List UInt8 → Res (List (List UInt8)))
    (hd : ∀ z, ∃ t, d z = .ok t) (src : Source) (k : Nat) (hk : k ≤ src.bytes.length) :
    ∃ t, runDecompress (leaf ps noRestr rc rd c d) ⟨src, unrestricted, k, none⟩ unrestricted = .ok t := by
  have hn : (leaf ps noRestr rc rd c d).restr.hasNone = true := show noRestr.hasNone = true by decide +kernel
  obtain ⟨t, ht⟩ := hd (src.bytes.drop k)
  refine ⟨t.flatten, ?_⟩
  simp only [runDecompress, hn, if_true]
  simp only [leaf, read_suffix ps hps rd src k hk, ht]
  rfl

/-- **C79, through the driver.** For these algorithms and chains of them every rest of every source is decompressed to some text. -/
theorem sturdy_run (E : Sys) (hps : 0 < E.ps) (a : Algo) : a.Sturdy → ∀ (src : Source) (k : Nat), k ≤ src.bytes.length →
    ∃ t, runDecompress (a.comp E) ⟨src, unrestricted, k, none⟩ unrestricted = .ok t := by
  have one : ∀ {r : Res (List UInt8)}, (∃ t, r = .ok t) → ∃ t, oneChunk r = .ok t := by
    rintro r ⟨t, rfl⟩; exact ⟨[t], rfl⟩
  induction a with
  | noop m d => intro _; exact leaf_plain_any hps _ _ _ _ (fun z => ⟨_, rfl⟩)
  | mtf => intro _; exact leaf_plain_any hps _ _ _ _ (fun z => ⟨_, rfl⟩)
  | literal c =>
    intro h
    cases c with
    | plain c => exact leaf_plain_any hps _ _ _ _ (fun z => one (literal_any_input_partial c h z))
    | huffman => exact absurd h id
    | arithmetic => exact absurd h id
    | sle k => exact absurd h id
  | bwt =>
    intro _ src k hk
    obtain ⟨u, hu, _⟩ := unesc_table
    have hnn : ¬ sentinelRestr.hasNone = true := by decide +kernel
    have hor : unrestricted.or sentinelRestr = sentinelRestr := by decide +kernel
    obtain ⟨t, ht⟩ := one (bwt_any_input (src.bytes.drop k))
    unfold runDecompress
    rw [show (Algo.bwt.comp E).restr = sentinelRestr from rfl, if_neg hnn, hor]
    show ∃ t', (match Inp.read E.ps .view ⟨src, unrestricted, k, none⟩ with
      | .error e => (.error e : Res (List UInt8))
      | .ok v => match oneChunk (bwtDecompress v) with
        | .error e => .error e
        | .ok chunks => writeUnrestricted sentinelRestr chunks) = .ok t'
    rw [read_suffix E.ps hps .view src k hk]
    simp only [ht, writeUnrestricted, hu, if_neg hnn]
    exact ⟨_, rfl⟩
  | chain a b iha ihb =>
    intro h src k hk
    obtain ⟨buf, hbuf⟩ := ihb h.2 src k hk
    obtain ⟨t, ht⟩ := iha h.1 (.view buf) 0 (Nat.zero_le _)
    refine ⟨t, ?_⟩
    have hn : ((Algo.chain a b).comp E).restr.hasNone = true := rfl
    rw [runDecompress, if_pos hn]
    show (match runDecompress (b.comp E) ⟨src, unrestricted, k, none⟩ unrestricted with
      | .error e => (.error e : Res (List UInt8))
      | .ok buf => runDecompress (a.comp E) (Inp.ofSource (.view buf)) unrestricted) = _
    rw [hbuf]
    exact ht
  | _ => intro h; exact absurd h id

theorem headerLoop_any : ∀ (l : List UInt8) (n : Nat) (err : Bool) (h : List UInt8), (∃ h', headerLoop l n err h = .ok h' ∧ (err = true → h'.length + 1 ≤ h.length + l.length) ∧
    (h' = h ∨ h'.length + 1 ≤ h.length + l.length)) ∨ headerLoop l n err h = .error .throw
  | [], n, err, h => by
    cases err
    · exact Or.inl ⟨h, rfl, by simp, Or.inl rfl⟩
    · exact Or.inr rfl
  | c :: cs, n, err, h => by
    rw [headerLoop]
    split
    · exact Or.inr rfl
    · split
      · exact Or.inl ⟨h, rfl, by simp, Or.inl rfl⟩
      · rcases headerLoop_any cs (n + 1) true (h ++ [c]) with ⟨h', h1, h2, _⟩ | h1
        · have := h2 rfl
          simp only [List.length_append, List.length_cons, List.length_nil] at this
          exact Or.inl ⟨h', h1, fun _ => by simp; omega, Or.inr (by simp; omega)⟩
        · exact Or.inr h1

/-- **C79, files with a header.** If every name the registry accepts stands for one of these algorithms, then the driver comes to an end on every
file, stream or string: it writes a text or reports an error. -/
theorem driver_any_file_partial (E : Sys) (hps : 0 < E.ps) (select : List UInt8 → Res Comp)
    (hsel : ∀ id, select id = .error .throw ∨ (id ≠ [] ∧ ∃ a : Algo, a.Sturdy ∧ select id = .ok (a.comp E))) (src : Source) :
    Answers (driverDecompress E.ps select none src) := by
  have hr := read_suffix E.ps hps .stream src 0 (Nat.zero_le _)
  simp only [Inp.read, List.drop_zero] at hr
  simp only [driverDecompress, Inp.ofSource, hr]
  rcases headerLoop_any src.bytes 0 false [] with ⟨h', h1, _, h3⟩ | h1
  · simp only [h1]
    rcases hsel h' with hs | ⟨hne, a, ha, hs⟩
    · rw [hs]; exact Or.inr rfl
    · rw [hs]
      have hk : h'.length + 1 ≤ src.bytes.length := by
        rcases h3 with rfl | h3
        · exact absurd rfl hne
        · simpa using h3
      obtain ⟨t, ht⟩ := sturdy_run E hps a ha src (h'.length + 1) hk
      refine Or.inl ⟨t, ?_⟩
      simpa [Inp.slice] using ht
  · rw [h1]; exact Or.inr rfl

/-! ## Cases -/

example : ∃ t, bwtDecompress [255, 3, 255, 0, 0, 9] = .ok t := bwt_any_input _
example : ¬ TenHigh [97, 97, 200] := by
  rintro ⟨u, v, w, h, hl, _⟩
  have := congrArg List.length h
  simp at this; omega
example : rleDecode 0 ([97, 97] ++ List.replicate 10 200 ++ [1]) = .error .ub := rle_shift_broken 0 97 (List.replicate 10 200) [1] (by simp) (by decide)
example : lzwDecompress bitCoder 0 [48, 152, 7] = .ok [97] ∨ Answers (lzwDecompress bitCoder 0 [48, 152, 7]) := by
  right
  exact (lzw_any_input_partial .bit (Or.inl rfl) [48, 152, 7] (by simp)).2 (by
    rintro ⟨_, k, bs, h, hk⟩
    have h' : CoderName.bit.coder.dec (.range 0 256) (bitsOf [48, 152, 7]) = .ok (97, (bitsOf [48, 152, 7]).drop 9) := by decide +kernel
    rw [h'] at h
    simp only [Except.ok.injEq, Prod.mk.injEq] at h
    rw [← h.1] at hk
    exact absurd hk (by decide))
example : (Algo.chain .bwt (.chain .mtf (.literal (.plain .ascii)))).Sturdy := ⟨trivial, trivial, Or.inr rfl⟩

end Tdc
