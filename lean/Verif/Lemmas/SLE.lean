import Verif.Model.SLE
import Verif.Lemmas.Coders

namespace Tdc
namespace SLE

/-! ## k-mers -/

/-- value of a list of bytes, least significant first -/
def leVal : List UInt8 → Nat
  | [] => 0
  | c :: cs => c.toNat + 256 * leVal cs

theorem leVal_lt (cs : List UInt8) : leVal cs < 256 ^ cs.length := by
  induction cs with
  | nil => simp [leVal]
  | cons c cs ih =>
    simp only [leVal, List.length_cons, Nat.pow_succ]
    have := c.toNat_lt
    omega

theorem compileLoop_eq (cs : List UInt8) : ∀ (i sym : Nat), i + cs.length ≤ 8 → sym < 2 ^ (8 * i) →
    compileLoop cs i sym = sym + 2 ^ (8 * i) * leVal cs := by
  induction cs with
  | nil => intro i sym _ _; simp [compileLoop, leVal]
  | cons c cs ih =>
    intro i sym hl hs
    have hc := c.toNat_lt
    have e1 : c.toNat <<< (8 * i) = 2 ^ (8 * i) * c.toNat := by rw [Nat.shiftLeft_eq, Nat.mul_comm]
    have hp : (2:Nat) ^ (8 * (i + 1)) = 2 ^ (8 * i) * 256 := by rw [Nat.mul_add, Nat.pow_add]
    have hle : (2:Nat) ^ (8 * (i + 1)) ≤ 2 ^ 64 := Nat.pow_le_pow_right (by omega) (by simp at hl; omega)
    have h2 : 2 ^ (8 * i) * c.toNat + sym < 2 ^ (8 * (i + 1)) := by
      have : 2 ^ (8 * i) * (c.toNat + 1) ≤ 2 ^ (8 * i) * 256 := Nat.mul_le_mul_left _ hc
      rw [hp, Nat.mul_add] at *
      omega
    have e2 : sym ||| (c.toNat <<< (8 * i)) % 2 ^ 64 = 2 ^ (8 * i) * c.toNat + sym := by
      rw [e1, Nat.mod_eq_of_lt (by omega), Nat.or_comm, ← Nat.two_pow_add_eq_or_of_lt hs]
    rw [compileLoop, e2, ih (i + 1) _ (by simp at hl; omega) h2, hp, leVal, Nat.mul_add, ← Nat.mul_assoc]
    omega

theorem digits_eq (cs : List UInt8) : ∀ x, x % 256 ^ cs.length = leVal cs →
    (List.range cs.length).map (fun i => UInt8.ofNat (x / 256 ^ i % 256)) = cs := by
  induction cs with
  | nil => simp
  | cons c cs ih =>
    intro x hx
    have hc := c.toNat_lt
    simp only [List.length_cons, leVal, Nat.pow_succ] at hx
    rw [Nat.mul_comm (256 ^ _) 256, Nat.mod_mul] at hx
    have h0 : x % 256 = c.toNat := by omega
    have h1 : x / 256 % 256 ^ cs.length = leVal cs := by omega
    rw [List.length_cons, List.range_succ_eq_map, List.map_cons, List.map_map]
    congr 1
    · rw [Nat.pow_zero, Nat.div_one, h0]; simp
    · rw [← ih _ h1]
      simp only [List.length_map, List.length_range]
      apply List.map_congr_left
      intro i _
      simp only [Function.comp, Nat.pow_succ, Nat.mul_comm (256 ^ i) 256, Nat.div_div_eq_div_mul]

theorem or_mask_isKmer (y : Nat) : isKmer (y ||| kmerMask) = true := by
  simp only [isKmer, decide_eq_true_eq]
  apply Nat.eq_of_testBit_eq
  intro i
  simp only [Nat.testBit_and, Nat.testBit_or]
  cases y.testBit i <;> cases kmerMask.testBit i <;> rfl

theorem lit_not_kmer (c : UInt8) : isKmer c.toNat = false := by
  have hc := c.toNat_lt
  simp only [isKmer, decide_eq_false_iff_not]
  have : c.toNat &&& kmerMask ≤ c.toNat := Nat.and_le_left
  intro h
  rw [h] at this
  have : kmerMask ≥ 256 := by decide
  omega

theorem compile_spec (kmer : List UInt8) (hk : kmer.length ≤ 7) :
    ∃ x, compile kmer = .ok x ∧ isKmer x = true ∧ x < 2 ^ 64 ∧ decompile x kmer.length = kmer := by
  have hl := leVal_lt kmer.reverse
  simp only [List.length_reverse] at hl
  have hlt : leVal kmer.reverse < 2 ^ 56 := by
    refine Nat.lt_of_lt_of_le hl ?_
    calc 256 ^ kmer.length ≤ 256 ^ 7 := Nat.pow_le_pow_right (by omega) hk
      _ = 2 ^ 56 := by decide
  have e : compileLoop kmer.reverse 0 0 = leVal kmer.reverse := by
    rw [compileLoop_eq _ 0 0 (by simp; omega) (by simp)]
    simp
  have em : leVal kmer.reverse ||| kmerMask = 2 ^ 56 * 255 + leVal kmer.reverse := by
    rw [Nat.or_comm, Nat.two_pow_add_eq_or_of_lt hlt]; rfl
  refine ⟨leVal kmer.reverse ||| kmerMask, ?_, or_mask_isKmer _, by omega, ?_⟩
  · rw [compile, if_neg (by omega), e]
  · rw [em, decompile]
    have hd := digits_eq kmer.reverse (2 ^ 56 * 255 + leVal kmer.reverse) (by
      rw [List.length_reverse]
      have h256 : 2 ^ 56 * 255 = 256 ^ kmer.length * (256 ^ (7 - kmer.length) * 255) := by
        rw [← Nat.mul_assoc, ← Nat.pow_add, Nat.add_sub_cancel' hk]
      rw [h256, Nat.add_comm, Nat.add_mul_mod_self_left, Nat.mod_eq_of_lt hl])
    rw [List.length_reverse] at hd
    rw [← List.reverse_inj, List.reverse_reverse]
    conv_rhs => rw [← hd]
    apply List.map_congr_left
    intro i _
    have : (255:Nat) = 2 ^ 8 - 1 := by decide
    rw [Nat.shiftRight_eq_div_pow, this, Nat.and_two_pow_sub_one_eq_mod, Nat.pow_mul]

/-! ## Codes of ranks and of values of a `MinDistributedRange` -/

theorem rdInt_w (w v n : Nat) (r : List Bool) (hv : v < 2 ^ n) (hw : v < 2 ^ w) : rdInt w n (writeInt v n ++ r) = (v, r) :=
  rdInt_writeInt w v n r hv hw

theorem encRank_spec (b r : Nat) (hr : r < 2 ^ b) (hb : b ≤ 64) (rest : List Bool) :
    decRank b (encRank b r ++ rest) = (r, rest) := by
  have h64 : r < 2 ^ 64 := Nat.lt_of_lt_of_le hr (Nat.pow_le_pow_right (by omega) hb)
  have full : rdInt 64 b (writeInt r b ++ rest) = (r, rest) := rdInt_writeInt 64 r b rest hr h64
  have sub : ∀ d n, r - d < 2 ^ n → rdInt 64 n (writeInt (r - d) n ++ rest) = (r - d, rest) := fun d n h =>
    rdInt_writeInt 64 (r - d) n rest h (by omega)
  have small : ∀ n, r < 2 ^ n → rdInt 64 n (writeInt r n ++ rest) = (r, rest) := fun n h => rdInt_writeInt 64 r n rest h h64
  have tag2 : ∀ t l, t < 4 → rdInt 8 2 (writeInt t 2 ++ l) = (t, l) := fun t l h => rdInt_writeInt 8 t 2 l h (by omega)
  have tag3 : ∀ t l, t < 8 → rdInt 8 3 (writeInt t 3 ++ l) = (t, l) := fun t l h => rdInt_writeInt 8 t 3 l h (by omega)
  unfold encRank decRank
  by_cases h4 : b < 4
  · simp only [h4, if_true]; exact full
  simp only [h4, if_false]
  by_cases h6 : b < 6
  · simp only [h6, if_true]
    by_cases hr4 : r < 4
    · simp only [hr4, if_true, List.cons_append, List.nil_append, rdBit]
      exact small 2 hr4
    · simp only [hr4, if_false, List.cons_append, List.nil_append, rdBit, Bool.true_eq_false]
      exact full
  simp only [h6, if_false]
  by_cases h6' : b = 6
  · simp only [h6', if_true]
    subst h6'
    by_cases c1 : r < 8
    · rw [if_pos c1, List.append_assoc, tag2 _ _ (by omega)]; exact small 3 (by omega)
    by_cases c2 : r < 16
    · rw [if_neg c1, if_pos c2, List.append_assoc, tag2 _ _ (by omega)]; simp only; rw [sub 8 3 (by omega)]; simp; omega
    by_cases c3 : r < 32
    · rw [if_neg c1, if_neg c2, if_pos c3, List.append_assoc, tag2 _ _ (by omega)]; simp only; rw [sub 16 4 (by omega)]; simp; omega
    · rw [if_neg c1, if_neg c2, if_neg c3, List.append_assoc, tag2 _ _ (by omega)]; exact full
  simp only [h6', if_false]
  by_cases c1 : r < 4
  · rw [if_pos c1, List.append_assoc, tag3 _ _ (by omega)]; exact small 2 (by omega)
  rw [if_neg c1]
  by_cases c2 : r < 8
  · rw [if_pos c2, List.append_assoc, tag3 _ _ (by omega)]; simp only; rw [sub 4 2 (by omega)]; simp; omega
  rw [if_neg c2]
  by_cases c3 : r < 12
  · rw [if_pos c3, List.append_assoc, tag3 _ _ (by omega)]; simp only; rw [sub 8 2 (by omega)]; simp; omega
  rw [if_neg c3]
  by_cases c4 : r < 16
  · rw [if_pos c4, List.append_assoc, tag3 _ _ (by omega)]; simp only; rw [sub 12 2 (by omega)]; simp; omega
  rw [if_neg c4]
  by_cases c5 : r < 24
  · rw [if_pos c5, List.append_assoc, tag3 _ _ (by omega)]; simp only; rw [sub 16 3 (by omega)]; simp; omega
  rw [if_neg c5]
  by_cases c6 : r < 32
  · rw [if_pos c6, List.append_assoc, tag3 _ _ (by omega)]; simp only; rw [sub 24 3 (by omega)]; simp; omega
  rw [if_neg c6]
  by_cases c7 : r < 40
  · rw [if_pos c7, List.append_assoc, tag3 _ _ (by omega)]; simp only; rw [sub 32 3 (by omega)]; simp; omega
  · rw [if_neg c7, List.append_assoc, tag3 _ _ (by omega)]; exact full

theorem encRank_ne_nil (b r : Nat) (hb : 0 < b) : encRank b r ≠ [] := by
  have h : ∀ v n l, 0 < n → writeInt v n ++ l ≠ [] := fun v n l hn => by simp [writeInt_ne_nil v n hn]
  unfold encRank
  repeat' split
  all_goals first | exact writeInt_ne_nil _ _ hb | exact h _ _ _ (by omega) | simp

/-- code of a `MinDistributedRange` value (SLECoder.hpp:285-301) -/
def encMin (v bits : Nat) : List Bool :=
  if bits ≤ 5 then writeInt v bits
  else if v < 8 then writeInt 0 2 ++ writeInt v 3
  else if v < 16 then writeInt 1 2 ++ writeInt (v - 8) 3
  else if v < 32 then writeInt 2 2 ++ writeInt (v - 16) 4
  else writeInt 3 2 ++ writeInt v bits

theorem encMin_spec (v bits : Nat) (hr : v < 2 ^ bits) (hb : bits ≤ 64) (rest : List Bool) :
    decMin bits (encMin v bits ++ rest) = (v, rest) := by
  have h64 : v < 2 ^ 64 := Nat.lt_of_lt_of_le hr (Nat.pow_le_pow_right (by omega) hb)
  have full : rdInt 64 bits (writeInt v bits ++ rest) = (v, rest) := rdInt_writeInt 64 v bits rest hr h64
  have sub : ∀ d n, v - d < 2 ^ n → rdInt 64 n (writeInt (v - d) n ++ rest) = (v - d, rest) := fun d n h =>
    rdInt_writeInt 64 (v - d) n rest h (by omega)
  have tag2 : ∀ t l, t < 4 → rdInt 8 2 (writeInt t 2 ++ l) = (t, l) := fun t l h => rdInt_writeInt 8 t 2 l h (by omega)
  unfold encMin decMin
  by_cases c0 : bits ≤ 5
  · rw [if_pos c0, if_pos c0]; exact full
  rw [if_neg c0, if_neg c0]
  by_cases c1 : v < 8
  · rw [if_pos c1, List.append_assoc, tag2 _ _ (by omega)]; exact rdInt_writeInt 64 v 3 rest (by omega) h64
  rw [if_neg c1]
  by_cases c2 : v < 16
  · rw [if_pos c2, List.append_assoc, tag2 _ _ (by omega)]; simp only; rw [sub 8 3 (by omega)]; simp; omega
  rw [if_neg c2]
  by_cases c3 : v < 32
  · rw [if_pos c3, List.append_assoc, tag2 _ _ (by omega)]; simp only; rw [sub 16 4 (by omega)]; simp; omega
  · rw [if_neg c3, List.append_assoc, tag2 _ _ (by omega)]; exact full

theorem encMin_ne_nil (v bits : Nat) (hb : 0 < bits) : encMin v bits ≠ [] := by
  have h : ∀ v n l, 0 < n → writeInt v n ++ l ≠ [] := fun v n l hn => by simp [writeInt_ne_nil v n hn]
  unfold encMin
  repeat' split
  all_goals first | exact writeInt_ne_nil _ _ hb | exact h _ _ _ (by omega)

/-! ## Header -/

theorem readSyms_spec (xs : List Nat) (hx : ∀ x ∈ xs, x < 2 ^ 64) (rest : List Bool) :
    readSyms xs.length (xs.flatMap (fun x => writeCInt x 7) ++ rest) = .ok (xs, rest) := by
  induction xs with
  | nil => rfl
  | cons x xs ih =>
    simp only [List.length_cons, List.flatMap_cons, List.append_assoc, readSyms]
    rw [rdCInt_writeCInt x 7 _ (by omega) (by omega) (hx x (by simp))]
    simp only
    rw [ih (fun y hy => hx y (by simp [hy]))]

theorem open_header (k : Nat) (rk : List Nat) (hl : rk.length < 2 ^ 64) (hx : ∀ x ∈ rk, x < 2 ^ 64) (rest : List Bool) :
    Dec.open k (header rk ++ rest) = .ok ⟨k, sigmaBits rk.length, rk, [], rest⟩ := by
  rw [Dec.open, header, List.append_assoc, rdCInt_writeCInt _ 7 _ (by omega) (by omega) hl]
  simp only
  rw [readSyms_spec rk hx]

/-! ## One symbol -/

theorem sigmaBits_eq (n : Nat) (h0 : 0 < n) (h : n < 2 ^ 64) : sigmaBits n = bitsFor (n - 1) := by
  have : (n + 2 ^ 64 - 1) % 2 ^ 64 = n - 1 := by omega
  rw [sigmaBits, this]

theorem decRank_encSym (sb : Nat) (rk : List Nat) (x : Nat) (hx : x ∈ rk) (hl : rk.length < 2 ^ 64) (hsb : sb = sigmaBits rk.length) (rest : List Bool) :
    decRank sb (encSym sb rk x ++ rest) = (rk.idxOf x, rest) ∧ rk[rk.idxOf x]? = some x := by
  have hi := List.idxOf_lt_length_of_mem hx
  rw [encSym, rank, if_pos hx]
  have hb := sigmaBits_eq rk.length (by omega) hl
  rw [← hsb] at hb
  have h1 : rk.length - 1 < 2 ^ bitsFor (rk.length - 1) := lt_two_pow_bitsFor _ (by omega)
  refine ⟨encRank_spec _ _ ?_ ?_ rest, ?_⟩
  · rw [hb]; omega
  · rw [hb]; exact bitsFor_le_64 _ (by omega)
  · rw [List.getElem?_eq_getElem hi, List.getElem_idxOf]

theorem encSym_ne_nil (sb : Nat) (rk : List Nat) (x : Nat) (h0 : 0 < rk.length) (hl : rk.length < 2 ^ 64) (hsb : sb = sigmaBits rk.length) : encSym sb rk x ≠ [] :=
  encRank_ne_nil _ _ (by rw [hsb, sigmaBits_eq _ h0 hl]; exact bitsFor_pos _ (by omega))

/-- a single literal -/
theorem decode_lit (k sb : Nat) (rk : List Nat) (c : UInt8) (hc : c.toNat ∈ rk) (hl : rk.length < 2 ^ 64) (hsb : sb = sigmaBits rk.length) (rest : List Bool) :
    Dec.decode ⟨k, sb, rk, [], encSym sb rk c.toNat ++ rest⟩ .literal = .ok (c.toNat, ⟨k, sb, rk, [], rest⟩) := by
  obtain ⟨h1, h2⟩ := decRank_encSym sb rk _ hc hl hsb rest
  simp only [Dec.decode, h1, h2, lit_not_kmer, Bool.false_eq_true, if_false]

/-- the first literal of a k-mer -/
theorem decode_kmer (sb : Nat) (rk : List Nat) (c : UInt8) (cs : List UInt8) (x : Nat) (hk : (c :: cs).length ≤ 7)
    (hc : compile (c :: cs) = .ok x) (hx : x ∈ rk) (hl : rk.length < 2 ^ 64) (hsb : sb = sigmaBits rk.length) (rest : List Bool) :
    Dec.decode ⟨(c :: cs).length, sb, rk, [], encSym sb rk x ++ rest⟩ .literal = .ok (c.toNat, ⟨(c :: cs).length, sb, rk, cs, rest⟩) := by
  obtain ⟨y, h1, h2, h3, h4⟩ := compile_spec (c :: cs) hk
  rw [hc] at h1
  cases h1
  obtain ⟨h5, h6⟩ := decRank_encSym sb rk _ hx hl hsb rest
  simp only [Dec.decode, h5, h6, h2, if_true, h4]

/-! ## Sequences -/

/-- Decoding the given calls from `d` yields the given values, `eof` is false before each of them, and afterwards the
decoder is in state `d'`. -/
def Dec.Yields : Dec → List (SRng × Nat) → Dec → Prop
  | d, [], d' => d = d'
  | d, t :: ts, d' => d.eof = false ∧ ∃ d₁, d.decode t.1 = .ok (t.2, d₁) ∧ d₁.Yields ts d'

theorem Dec.Yields.append {d d₁ d' : Dec} {ts us : List (SRng × Nat)} (h : d.Yields ts d₁) (h' : d₁.Yields us d') :
    d.Yields (ts ++ us) d' := by
  induction ts generalizing d with
  | nil => cases h; exact h'
  | cons t ts ih =>
    obtain ⟨h1, d2, h2, h3⟩ := h
    exact ⟨h1, d2, h2, ih h3⟩

/-- literal tokens -/
def lits (cs : List UInt8) : List (SRng × Nat) := cs.map fun c => (.literal, c.toNat)

theorem eof_false (k sb : Nat) (rk : List Nat) (p : List UInt8) (a rest : List Bool) (h : a ≠ []) :
    (Dec.mk k sb rk p (a ++ rest)).eof = false := by
  cases a with
  | nil => exact absurd rfl h
  | cons x a => simp [Dec.eof]

/-- single literals of a flushed buffer -/
theorem yields_flush (k sb : Nat) (rk : List Nat) (cs : List UInt8) (hc : ∀ c ∈ cs, c.toNat ∈ rk) (hl : rk.length < 2 ^ 64) (hsb : sb = sigmaBits rk.length)
    (rest : List Bool) : Dec.Yields ⟨k, sb, rk, [], flush sb rk cs ++ rest⟩ (lits cs) ⟨k, sb, rk, [], rest⟩ := by
  induction cs with
  | nil => rfl
  | cons c cs ih =>
    have hcm := hc c (by simp)
    have : 0 < rk.length := List.length_pos_of_mem hcm
    rw [flush, List.flatMap_cons, List.append_assoc]
    exact ⟨eof_false _ _ _ _ _ _ (encSym_ne_nil _ _ _ this hl hsb), _, decode_lit k sb rk c hcm hl hsb _,
      ih (fun x hx => hc x (by simp [hx]))⟩

/-- the rest of a k-mer -/
theorem yields_pend (k sb : Nat) (rk : List Nat) (cs : List UInt8) (rest : List Bool) :
    Dec.Yields ⟨k, sb, rk, cs, rest⟩ (lits cs) ⟨k, sb, rk, [], rest⟩ := by
  induction cs with
  | nil => rfl
  | cons c cs ih => exact ⟨rfl, _, rfl, ih⟩

/-- a whole k-mer -/
theorem yields_kmer (sb : Nat) (rk : List Nat) (cs : List UInt8) (x : Nat) (h0 : cs ≠ []) (hk : cs.length ≤ 7)
    (hc : compile cs = .ok x) (hx : x ∈ rk) (hl : rk.length < 2 ^ 64) (hsb : sb = sigmaBits rk.length) (rest : List Bool) :
    Dec.Yields ⟨cs.length, sb, rk, [], encSym sb rk x ++ rest⟩ (lits cs) ⟨cs.length, sb, rk, [], rest⟩ := by
  cases cs with
  | nil => exact absurd rfl h0
  | cons c cs =>
    exact ⟨eof_false _ _ _ _ _ _ (encSym_ne_nil _ _ _ (List.length_pos_of_mem hx) hl hsb), _, decode_kmer sb rk c cs x hk hc hx hl hsb rest,
      yields_pend _ sb rk cs rest⟩

/-- The value gets across: it is in the range, or at least representable in the bits of the range. -/
def SRng.Fits : SRng → Nat → Prop
  | .range a b, v => a ≤ v ∧ v - a < 2 ^ bitsFor (b - a) ∧ v < 2 ^ 64 ∧ b < 2 ^ 64
  | .minDist a b, v => a ≤ v ∧ v ≤ b ∧ b < 2 ^ 64
  | .literal, v => v ≤ 255
  | .bit, v => v ≤ 1

theorem SRng.Has.fits {r : SRng} {v : Nat} (h : r.Has v) : r.Fits v := by
  cases r with
  | range a b =>
    obtain ⟨h1, h2, h3⟩ := h
    have := lt_two_pow_bitsFor (b - a) (by omega)
    exact ⟨h1, by omega, by omega, h3⟩
  | minDist a b => exact h
  | literal => exact h
  | bit => exact h

/-- a token that is not a literal is decoded from its code -/
theorem decode_other (k sb : Nat) (rk : List Nat) (r : SRng) (v : Nat) (hr : r ≠ .literal) (hv : r.Fits v) :
    ∃ code, code ≠ [] ∧ (∀ buf, encode k sb rk buf r v = .ok (flush sb rk buf ++ code, [])) ∧
      ∀ rest, Dec.decode ⟨k, sb, rk, [], code ++ rest⟩ r = .ok (v, ⟨k, sb, rk, [], rest⟩) := by
  cases r with
  | literal => exact absurd rfl hr
  | bit =>
    refine ⟨_, by simp, fun buf => rfl, fun rest => ?_⟩
    simp only [Dec.decode, List.cons_append, rdBit, ne_eq, decide_not]
    rw [bit_toNat v hv]
    rfl
  | range a b =>
    obtain ⟨h1, h2, h3, h4⟩ := hv
    have hm : (v + 2 ^ 64 - a) % 2 ^ 64 = v - a := by omega
    refine ⟨_, ?_, fun buf => rfl, fun rest => ?_⟩
    · exact writeInt_ne_nil _ _ (bitsFor_pos _ (by omega))
    · simp only [Dec.decode]
      rw [hm, rdInt_writeInt 64 (v - a) _ rest (by omega) (by omega)]
      simp only
      rw [Nat.sub_add_cancel h1, Nat.mod_eq_of_lt (by omega)]
  | minDist a b =>
    obtain ⟨h1, h2, h3⟩ := hv
    have hm : (v + 2 ^ 64 - a) % 2 ^ 64 = v - a := by omega
    have hlt := lt_two_pow_bitsFor (b - a) (by omega)
    refine ⟨encMin ((v + 2 ^ 64 - a) % 2 ^ 64) (bitsFor (b - a)), ?_, fun buf => rfl, fun rest => ?_⟩
    · exact encMin_ne_nil _ _ (bitsFor_pos _ (by omega))
    · simp only [Dec.decode]
      rw [hm, encMin_spec (v - a) _ (by omega) (bitsFor_le_64 _ (by omega))]
      simp only
      rw [Nat.sub_add_cancel h1, Nat.mod_eq_of_lt (by omega)]

theorem encodeAll_yields (k sb : Nat) (hk1 : 1 ≤ k) (hk7 : k ≤ 7) (rk : List Nat) (hl : rk.length < 2 ^ 64) (hsb : sb = sigmaBits rk.length) (rest : List Bool)
    (ts : List (SRng × Nat)) (hts : ∀ t ∈ ts, t.1.Fits t.2 ∧ (t.1 = .literal → t.2 ∈ rk)) :
    ∀ buf : List UInt8, buf.length ≤ k → (∀ c ∈ buf, c.toNat ∈ rk) →
      ∃ bits, encodeAll k sb rk buf ts = .ok bits ∧ Dec.Yields ⟨k, sb, rk, [], bits ++ rest⟩ (lits buf ++ ts) ⟨k, sb, rk, [], rest⟩ := by
  induction ts with
  | nil =>
    intro buf _ hb
    refine ⟨_, rfl, ?_⟩
    rw [List.append_nil]
    exact yields_flush k sb rk buf hb hl hsb rest
  | cons t ts ih =>
    intro buf hbl hb
    have ih := ih (fun t ht => hts t (by simp [ht]))
    obtain ⟨hhas, hlit⟩ := hts t (by simp)
    obtain ⟨r, v⟩ := t
    by_cases hr : r = .literal
    · subst hr
      have hv : v ≤ 255 := hhas
      have hvm : v ∈ rk := hlit rfl
      have hvv : (UInt8.ofNat v).toNat = v := by simp; omega
      -- what happens once the buffer has been rolled
      have key : ∀ (pre : List Bool) (buf' : List UInt8), buf' ≠ [] → buf'.length ≤ k → (∀ c ∈ buf', c.toNat ∈ rk) →
          ∃ bits buf'' tail, tryKmer k sb rk pre buf' = .ok (pre ++ bits, buf'') ∧
            encodeAll k sb rk buf'' ts = .ok tail ∧
            Dec.Yields ⟨k, sb, rk, [], bits ++ tail ++ rest⟩ (lits buf' ++ ts) ⟨k, sb, rk, [], rest⟩ := by
        intro pre buf' hne hlen hmem
        by_cases hfull : buf'.length = k
        · obtain ⟨x, hx, -, -, -⟩ := compile_spec buf' (by omega)
          by_cases hin : x ∈ rk
          · obtain ⟨tail, h1, h2⟩ := ih [] (by simp) (by simp)
            refine ⟨encSym sb rk x, [], tail, ?_, h1, ?_⟩
            · rw [tryKmer, if_pos hfull, hx]; simp only; rw [if_pos hin]
            · rw [List.append_assoc]
              subst hfull
              exact (yields_kmer sb rk buf' x hne hk7 hx hin hl hsb _).append h2
          · obtain ⟨tail, h1, h2⟩ := ih buf' hlen hmem
            refine ⟨[], buf', tail, ?_, h1, h2⟩
            rw [tryKmer, if_pos hfull, hx]; simp only; rw [if_neg hin, List.append_nil]
        · obtain ⟨tail, h1, h2⟩ := ih buf' hlen hmem
          refine ⟨[], buf', tail, ?_, h1, h2⟩
          rw [tryKmer, if_neg hfull, List.append_nil]
      simp only [encodeAll, encode, roll]
      by_cases hfull : buf.length = k
      · cases buf with
        | nil => simp at hfull; omega
        | cons o buf =>
          have hom : o.toNat ∈ rk := hb o (by simp)
          obtain ⟨bits, buf'', tail, h1, h2, h3⟩ := key (encSym sb rk o.toNat) (buf ++ [UInt8.ofNat v]) (by simp)
            (by simp at hfull ⊢; omega) (by
              intro c hc
              rcases List.mem_append.mp hc with h | h
              · exact hb c (by simp [h])
              · rw [List.mem_singleton.mp h, hvv]; exact hvm)
          refine ⟨encSym sb rk o.toNat ++ bits ++ tail, ?_, ?_⟩
          · rw [if_pos hfull]
            simp only
            rw [h1]
            simp only
            rw [h2]
          · have e : lits (o :: buf) ++ (SRng.literal, v) :: ts = lits [o] ++ (lits (buf ++ [UInt8.ofNat v]) ++ ts) := by
              simp [lits, hvv]
            rw [e]
            have := yields_flush k sb rk [o] (by simpa using hom) hl hsb (bits ++ tail ++ rest)
            refine Dec.Yields.append ?_ h3
            simpa [flush, List.append_assoc] using this
      · obtain ⟨bits, buf'', tail, h1, h2, h3⟩ := key [] (buf ++ [UInt8.ofNat v]) (by simp)
            (by simp; omega) (by
              intro c hc
              rcases List.mem_append.mp hc with h | h
              · exact hb c h
              · rw [List.mem_singleton.mp h, hvv]; exact hvm)
        refine ⟨bits ++ tail, ?_, ?_⟩
        · rw [if_neg hfull]
          simp only
          rw [h1]
          simp only
          rw [h2, List.nil_append]
        · have e : lits buf ++ (SRng.literal, v) :: ts = lits (buf ++ [UInt8.ofNat v]) ++ ts := by
            simp [lits, hvv]
          rw [e]
          exact h3
    · obtain ⟨code, hne, henc, hdec⟩ := decode_other k sb rk r v hr hhas
      obtain ⟨tail, h1, h2⟩ := ih [] (by simp) (by simp)
      refine ⟨flush sb rk buf ++ code ++ tail, ?_, ?_⟩
      · simp only [encodeAll, henc]
        rw [h1]
      · rw [List.append_assoc, List.append_assoc]
        refine (yields_flush k sb rk buf hb hl hsb _).append ?_
        refine ⟨eof_false _ _ _ _ _ _ hne, _, hdec _, ?_⟩
        exact h2

/-! ## The ranking -/

theorem increase_keys (m : CounterMap) (x : Nat) :
    ((m.increase x).map (·.1)) = if x ∈ m.map (·.1) then m.map (·.1) else m.map (·.1) ++ [x] := by
  induction m with
  | nil => simp [CounterMap.increase]
  | cons e m ih =>
    obtain ⟨y, n⟩ := e
    simp only [CounterMap.increase]
    by_cases h : y = x
    · simp [h]
    · rw [if_neg h, List.map_cons, ih]
      have : ¬ x = y := fun h' => h h'.symm
      simp only [List.map_cons, List.mem_cons, this, false_or]
      split <;> simp

theorem setCount_keys (m : CounterMap) (x c : Nat) :
    ((m.setCount x c).map (·.1)) = if x ∈ m.map (·.1) then m.map (·.1) else m.map (·.1) ++ [x] := by
  induction m with
  | nil => simp [CounterMap.setCount]
  | cons e m ih =>
    obtain ⟨y, n⟩ := e
    simp only [CounterMap.setCount]
    by_cases h : y = x
    · simp [h]
    · rw [if_neg h, List.map_cons, ih]
      have : ¬ x = y := fun h' => h h'.symm
      simp only [List.map_cons, List.mem_cons, this, false_or]
      split <;> simp

theorem mem_increase (m : CounterMap) (x y : Nat) : y ∈ (m.increase x).map (·.1) ↔ y = x ∨ y ∈ m.map (·.1) := by
  rw [increase_keys]
  split
  · constructor
    · exact Or.inr
    · rintro (rfl | h) <;> assumption
  · simp [or_comm]

theorem mem_setCount (m : CounterMap) (x c y : Nat) : y ∈ (m.setCount x c).map (·.1) ↔ y = x ∨ y ∈ m.map (·.1) := by
  rw [setCount_keys]
  split
  · constructor
    · exact Or.inr
    · rintro (rfl | h) <;> assumption
  · simp [or_comm]

theorem nodup_increase (m : CounterMap) (x : Nat) (h : (m.map (·.1)).Nodup) : ((m.increase x).map (·.1)).Nodup := by
  rw [increase_keys]
  split
  · exact h
  · rename_i hx
    rw [List.nodup_append]
    exact ⟨h, by simp, by intro a ha b hb; rw [List.mem_singleton.mp hb]; rintro rfl; exact hx ha⟩

theorem length_setCount (m : CounterMap) (x c : Nat) : (m.setCount x c).length ≤ m.length + 1 := by
  have := congrArg List.length (setCount_keys m x c)
  rw [List.length_map] at this
  rw [this]
  split <;> simp

theorem merge_spec (es : List (Nat × Nat)) : ∀ (eta : Nat) (al : CounterMap),
    (merge es eta al).length ≤ al.length + max 1 eta ∧
    (∀ y ∈ al.map (·.1), y ∈ (merge es eta al).map (·.1)) ∧
    ∀ y ∈ (merge es eta al).map (·.1), y ∈ al.map (·.1) ∨ y ∈ es.map (·.1) := by
  induction es with
  | nil => intro eta al; exact ⟨by simp [merge], fun y h => h, fun y h => Or.inl h⟩
  | cons e es ih =>
    intro eta al
    have hl := length_setCount al e.1 e.2
    rw [merge]
    split
    · refine ⟨by omega, fun y h => (mem_setCount _ _ _ _).mpr (Or.inr h), fun y h => ?_⟩
      rcases (mem_setCount _ _ _ _).mp h with h | h
      · right; simp [h]
      · exact Or.inl h
    · obtain ⟨h1, h2, h3⟩ := ih (eta - 1) (al.setCount e.1 e.2)
      refine ⟨by omega, fun y h => h2 y ((mem_setCount _ _ _ _).mpr (Or.inr h)), fun y h => ?_⟩
      rcases h3 y h with h | h
      · rcases (mem_setCount _ _ _ _).mp h with h | h
        · right; simp [h]
        · exact Or.inl h
      · right; simp at h ⊢; exact Or.inr h

theorem mem_getSorted (m : CounterMap) (y : Nat) : y ∈ m.getSorted.map (·.1) ↔ y ∈ m.map (·.1) := by
  have := (List.perm_insertionSort counterLe m).map (·.1)
  exact this.mem_iff

/-- Invariant of the counting loop. -/
structure CountOk (k : Nat) (s : Count) : Prop where
  buf_le : s.buf.length ≤ k
  nodup : (s.alphabet.map (·.1)).Nodup
  lit : ∀ x ∈ s.alphabet.map (·.1), x < 256
  kmer : ∀ x ∈ s.kmers.map (·.1), x < 2 ^ 64

theorem countStep_ok (k : Nat) (hk : k ≤ 7) (s : Count) (h : CountOk k s) (l : UInt8 × Nat) :
    ∃ s', countStep k s l = .ok s' ∧ CountOk k s' ∧ ∀ y, y ∈ s'.alphabet.map (·.1) ↔ y = l.1.toNat ∨ y ∈ s.alphabet.map (·.1) := by
  have hlit : ∀ x ∈ (s.alphabet.increase l.1.toNat).map (·.1), x < 256 := by
    intro x hx
    rcases (mem_increase _ _ _).mp hx with h' | h'
    · rw [h']; exact l.1.toNat_lt
    · exact h.lit x h'
  have hnd := nodup_increase s.alphabet l.1.toNat h.nodup
  unfold countStep
  by_cases hk1 : k > 1
  · rw [if_pos hk1]
    have hroll : ∃ out buf, roll k (if l.2 ≠ s.last + 1 then [] else s.buf) l.1 = .ok (out, buf) ∧ buf.length ≤ k := by
      have hb : (if l.2 ≠ s.last + 1 then [] else s.buf : List UInt8).length ≤ k := by
        split
        · simp
        · exact h.buf_le
      generalize (if l.2 ≠ s.last + 1 then [] else s.buf : List UInt8) = b at hb
      unfold roll
      by_cases hf : b.length = k
      · cases b with
        | nil => simp at hf; omega
        | cons o b => exact ⟨some o, b ++ [l.1], by rw [if_pos hf], by simp at hf ⊢; omega⟩
      · exact ⟨none, b ++ [l.1], by rw [if_neg hf], by simp; omega⟩
    obtain ⟨out, buf, hr, hbl⟩ := hroll
    rw [hr]
    simp only
    split
    · obtain ⟨x, hx, -, hx64, -⟩ := compile_spec buf (by omega)
      rw [hx]
      refine ⟨_, rfl, ⟨hbl, hnd, hlit, ?_⟩, fun y => mem_increase _ _ _⟩
      intro y hy
      rcases (mem_increase _ _ _).mp hy with h' | h'
      · rw [h']; exact hx64
      · exact h.kmer y h'
    · exact ⟨_, rfl, ⟨hbl, hnd, hlit, h.kmer⟩, fun y => mem_increase _ _ _⟩
  · rw [if_neg hk1]
    exact ⟨_, rfl, ⟨h.buf_le, hnd, hlit, h.kmer⟩, fun y => mem_increase _ _ _⟩

theorem countLoop_ok (k : Nat) (hk : k ≤ 7) (ls : List (UInt8 × Nat)) : ∀ s, CountOk k s →
    ∃ s', countLoop k ls s = .ok s' ∧ CountOk k s' ∧ ∀ y, y ∈ s'.alphabet.map (·.1) ↔ y ∈ ls.map (·.1.toNat) ∨ y ∈ s.alphabet.map (·.1) := by
  induction ls with
  | nil => intro s h; exact ⟨s, rfl, h, by simp⟩
  | cons l ls ih =>
    intro s h
    obtain ⟨s1, h1, h2, h3⟩ := countStep_ok k hk s h l
    obtain ⟨s2, h4, h5, h6⟩ := ih s1 h2
    refine ⟨s2, by rw [countLoop, h1]; exact h4, h5, fun y => ?_⟩
    rw [h6, h3]
    simp only [List.map_cons, List.mem_cons]
    tauto

theorem length_le_256 (l : List Nat) (h : l.Nodup) (hl : ∀ x ∈ l, x < 256) : l.length ≤ 256 := by
  have := (List.subperm_of_subset h (l₂ := List.range 256) (fun x hx => List.mem_range.mpr (hl x hx))).length_le
  simpa using this

theorem ranking_ok (k : Nat) (hk : k ≤ 7) (ls : List (UInt8 × Nat)) (h0 : k ≤ 1 ∨ ls ≠ []) :
    ∃ rk, ranking k ls = .ok rk ∧ rk.length ≤ 256 + 1024 ∧ (∀ x ∈ rk, x < 2 ^ 64) ∧ ∀ l ∈ ls, l.1.toNat ∈ rk := by
  obtain ⟨s, h1, h2, h3⟩ := countLoop_ok k hk ls ⟨[], 0, [], []⟩ ⟨by simp, by simp, by simp, by simp⟩
  have hlen := length_le_256 _ h2.nodup h2.lit
  rw [List.length_map] at hlen
  have hext : ∃ al, extend k s.alphabet s.kmers = .ok al ∧ al.length ≤ 256 + 1024 ∧
      (∀ y ∈ s.alphabet.map (·.1), y ∈ al.map (·.1)) ∧ ∀ y ∈ al.map (·.1), y < 2 ^ 64 := by
    unfold extend
    by_cases hk1 : k > 1
    · rw [if_pos hk1]
      have hne : ls ≠ [] := by rcases h0 with h | h; omega; exact h
      have hpos : 0 < s.alphabet.length := by
        cases ls with
        | nil => exact absurd rfl hne
        | cons l ls =>
          have := (h3 l.1.toNat).mpr (Or.inl (by simp))
          have := List.length_pos_of_mem this
          simpa using this
      have hb := sigmaBits_eq s.alphabet.length hpos (by omega)
      have hb8 : bitsFor (s.alphabet.length - 1) ≤ 8 := by
        by_contra hc
        have hne : s.alphabet.length - 1 ≠ 0 := by
          intro h0; rw [h0] at hc; exact hc (by decide)
        have := two_pow_le_of_bitsFor _ hne (by omega)
        have h2 : (2:Nat) ^ 8 ≤ 2 ^ (bitsFor (s.alphabet.length - 1) - 1) := Nat.pow_le_pow_right (by omega) (by omega)
        omega
      simp only [hb]
      rw [if_neg (by omega)]
      refine ⟨_, rfl, ?_⟩
      have heta : (1 <<< (bitsFor (s.alphabet.length - 1) + (if 1 <<< bitsFor (s.alphabet.length - 1) = s.alphabet.length then 1 else 2)))
          - s.alphabet.length ≤ 1024 := by
        have : (1 <<< (bitsFor (s.alphabet.length - 1) + (if 1 <<< bitsFor (s.alphabet.length - 1) = s.alphabet.length then 1 else 2)))
            ≤ 1024 := by
          rw [Nat.shiftLeft_eq, Nat.one_mul]
          calc _ ≤ 2 ^ 10 := Nat.pow_le_pow_right (by omega) (by split <;> omega)
            _ = 1024 := by decide
        omega
      generalize (1 <<< (bitsFor (s.alphabet.length - 1) + (if 1 <<< bitsFor (s.alphabet.length - 1) = s.alphabet.length then 1 else 2)))
          - s.alphabet.length = eta at heta
      obtain ⟨m1, m2, m3⟩ := merge_spec s.kmers.getSorted eta s.alphabet
      refine ⟨by omega, m2, fun y hy => ?_⟩
      rcases m3 y hy with h | h
      · have := h2.lit y h; omega
      · exact h2.kmer y ((mem_getSorted _ _).mp h)
    · rw [if_neg hk1]
      exact ⟨_, rfl, by omega, fun y h => h, fun y h => by have := h2.lit y h; omega⟩
  obtain ⟨al, e1, e2, e3, e4⟩ := hext
  refine ⟨al.getSorted.map (·.1), ?_, ?_, ?_, ?_⟩
  · rw [ranking, h1]; simp only; rw [e1]
  · rw [List.length_map, CounterMap.getSorted, List.length_insertionSort]; exact e2
  · intro x hx; exact e4 x ((mem_getSorted _ _).mp hx)
  · intro l hl
    exact (mem_getSorted _ _).mpr (e3 _ ((h3 _).mpr (Or.inl (List.mem_map.mpr ⟨l, hl, rfl⟩))))

end SLE
end Tdc
