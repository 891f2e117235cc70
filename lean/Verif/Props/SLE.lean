import Verif.Lemmas.SLE
import Verif.Lemmas.LZSSStateful
import Verif.Props.LZSSCoding
import Verif.Props.LZSSLCP
import Verif.Props.BitIO

/-!
# Property C27: the SLE coder
-/

namespace Tdc
namespace SLE

theorem Dec.Yields.prefix {d d' : Dec} {ts : List (SRng × Nat)} (h : d.Yields ts d') (he : d'.eof = true) (n : Nat) :
    ∃ d₁, d.decodeAll ((ts.take n).map (·.1)) = .ok ((ts.take n).map (·.2), d₁) ∧ (d₁.eof = true ↔ ts.length ≤ n) := by
  induction ts generalizing d n with
  | nil => cases h; exact ⟨d', by simp [Dec.decodeAll], by simp [he]⟩
  | cons t ts ih =>
    obtain ⟨h1, d2, h2, h3⟩ := h
    cases n with
    | zero => exact ⟨d, by simp [Dec.decodeAll], by simp [h1]⟩
    | succ n =>
      obtain ⟨d3, h4, h5⟩ := ih h3 n
      refine ⟨d3, ?_, by simpa using h5⟩
      simp only [List.take_succ_cons, List.map_cons, Dec.decodeAll, h2, h4]

/-- **C27.** For every k-mer length from 1 to 7, every announced stream of literals with their positions and every sequence of
`encode` calls (literals among the announced ones, `Range`, `MinDistributedRange` and bit values within their ranges), encoder and
destructor write a stream from which the same calls of `decode` return the same values; `eof()` is true exactly after the last
value, in particular not inside a k-mer.
Missing from the full property: an empty announcement with `kmer > 1` (`sle_no_literals_broken`), and `kmer` 0 or above 7
(`sle_k0_broken`, `sle_k8_broken`, `sle_k9_broken`). -/
theorem sle_lossless_partial (k : Nat) (hk1 : 1 ≤ k) (hk7 : k ≤ 7) (lits : List (UInt8 × Nat)) (h0 : k = 1 ∨ lits ≠ [])
    (ts : List (SRng × Nat)) (hts : ∀ t ∈ ts, t.1.Has t.2 ∧ (t.1 = .literal → ∃ l ∈ lits, l.1.toNat = t.2)) :
    ∃ bits, run k lits ts = .ok bits ∧
      ∃ d₀, Dec.open k (bitsOf (BitO.toBytes bits)) = .ok d₀ ∧
        ∀ n, ∃ d, d₀.decodeAll ((ts.take n).map (·.1)) = .ok ((ts.take n).map (·.2), d) ∧ (d.eof = true ↔ ts.length ≤ n) := by
  obtain ⟨rk, h1, h2, h3, h4⟩ := ranking_ok k hk7 lits (by rcases h0 with h | h; left; omega; right; exact h)
  obtain ⟨bits, h5, h6⟩ := encodeAll_yields k (sigmaBits rk.length) hk1 hk7 rk (by omega) rfl [] ts (by
    intro t ht
    refine ⟨(hts t ht).1.fits, fun hl => ?_⟩
    obtain ⟨l, hl1, hl2⟩ := (hts t ht).2 hl
    rw [← hl2]
    exact h4 l hl1) [] (by simp) (by simp)
  refine ⟨header rk ++ bits, ?_, ?_⟩
  · rw [run, h1]; simp only; rw [h5]
  · rw [bitsOf_toBytes]
    refine ⟨_, open_header k rk (by omega) h3 bits, fun n => ?_⟩
    rw [List.append_nil] at h6
    exact h6.prefix rfl n

/-- The hypotheses are met by a text with a repeated k-mer, mixed with ranges of both kinds and bits. -/
example :
    let lits : List (UInt8 × Nat) := [(97, 0), (98, 1), (97, 2), (98, 3), (99, 7)]
    let ts : List (SRng × Nat) := [(.literal, 97), (.literal, 98), (.literal, 97), (.bit, 1), (.minDist 5 200, 77), (.range 0 9, 9), (.literal, 99)]
    (∀ t ∈ ts, t.1.Has t.2 ∧ (t.1 = .literal → ∃ l ∈ lits, l.1.toNat = t.2)) := by decide

/-- … and there the k-mer `aba` has a rank of its own (besides `bab`) and is written as one symbol: the ranking and the bits. -/
example : ranking 3 [(97, 0), (98, 1), (97, 2), (98, 3), (99, 7)] = .ok [97, 98, 99, 0xFF00000000616261, 0xFF00000000626162] ∧
    encodeAll 3 3 [97, 98, 99, 0xFF00000000616261, 0xFF00000000626162] [] [(.literal, 97), (.literal, 98), (.literal, 97), (.bit, 1)]
      = .ok [false, true, true, true] := by decide +kernel

/-- **C27, negation.** Constructing the encoder with an empty announcement is undefined (a shift by 64) for every `kmer > 1`
(the default is 3). -/
theorem sle_no_literals_broken (k : Nat) (hk : 1 < k) (ts : List (SRng × Nat)) : run k [] ts = .error .ub := by
  have : extend k [] [] = .error .ub := by
    rw [extend, if_pos hk]
    have : sigmaBits ([] : CounterMap).length ≥ 64 := by decide
    simp only [this, if_true]
  rw [run, ranking, countLoop]
  simp only [this]

/-- **C27, negation.** With `kmer = 0`, encoding any literal is undefined. -/
theorem sle_k0_broken (lits : List (UInt8 × Nat)) (ts : List (SRng × Nat)) (ht : ∃ t ∈ ts, t.1 = .literal) :
    run 0 lits ts = .error .ub := by
  obtain ⟨rk, h1, -⟩ := ranking_ok 0 (by omega) lits (Or.inl (by omega))
  rw [run, h1]
  simp only
  generalize sigmaBits rk.length = sb
  have : encodeAll 0 sb rk [] ts = .error .ub := by
    induction ts with
    | nil => simp at ht
    | cons t ts ih =>
      obtain ⟨r, v⟩ := t
      rw [encodeAll]
      cases r with
      | literal => simp [encode, roll]
      | _ =>
        simp only [encode]
        rw [ih (by simpa using ht)]
  rw [this]

example : ∃ t ∈ [(SRng.bit, 1), (.literal, 97)], t.1 = .literal := by decide

/-- **C27, negation.** With `kmer = 8` (excluded only by an `assert`) a k-mer loses its first byte: eight announced and encoded
literals `a` come back as `0xFF, a, a, a, a, a, a, a`. -/
theorem sle_k8_broken :
    let lits : List (UInt8 × Nat) := (List.range 8).map fun i => (97, i)
    let ts : List (SRng × Nat) := List.replicate 8 (.literal, 97)
    ∃ bits d₀ d, run 8 lits ts = .ok bits ∧ Dec.open 8 (bitsOf (BitO.toBytes bits)) = .ok d₀ ∧
      d₀.decodeAll (ts.map (·.1)) = .ok ([255, 97, 97, 97, 97, 97, 97, 97], d) := by
  have h1 : ranking 8 ((List.range 8).map fun i => (97, i)) = .ok [97, 0xFF61616161616161] := by decide +kernel
  have h2 : encodeAll 8 (sigmaBits 2) [97, 0xFF61616161616161] [] (List.replicate 8 (.literal, 97)) = .ok [true] := by decide +kernel
  refine ⟨header [97, 0xFF61616161616161] ++ [true], ⟨8, sigmaBits 2, [97, 0xFF61616161616161], [], [true]⟩,
    ⟨8, 1, [97, 0xFF61616161616161], [], []⟩, ?_, ?_, ?_⟩
  · rw [run, h1]; simp only; rw [show ([97, 0xFF61616161616161] : List Nat).length = 2 from rfl, h2]
  · rw [bitsOf_toBytes]
    exact open_header 8 [97, 0xFF61616161616161] (by simp) (by simp) [true]
  · rw [show sigmaBits 2 = 1 by decide +kernel]
    rfl

/-- **C27, negation.** With `kmer ≥ 9`, nine consecutive announced literals already make the constructor undefined. -/
theorem sle_k9_broken (ts : List (SRng × Nat)) : run 9 ((List.range 9).map fun i => (97, i)) ts = .error .ub := by
  have : ranking 9 ((List.range 9).map fun i => (97, i)) = .error .ub := by decide +kernel
  rw [run, this]

/-! ## LZSS factorizations coded with the SLE coder -/

theorem writeInt_mod (v b : Nat) : writeInt v b = writeInt (v % 2 ^ b) b :=
  writeInt_congr v (v % 2 ^ b) b fun i hi => by rw [Nat.testBit_mod_two_pow]; simp [hi]

theorem encode_mod (k sb : Nat) (rk : List Nat) (buf : List UInt8) (n v : Nat) (hn : n < 2 ^ 64) (hv : v < 2 ^ 64) :
    encode k sb rk buf (.range 0 n) v = encode k sb rk buf (.range 0 n) (v % 2 ^ bitsFor n) := by
  have hle : v % 2 ^ bitsFor n ≤ v := Nat.mod_le _ _
  simp only [encode]
  rw [Nat.sub_zero, Nat.sub_zero, Nat.sub_zero, Nat.add_mod_right, Nat.add_mod_right, Nat.mod_eq_of_lt hv, writeInt_mod,
    Nat.mod_eq_of_lt (by omega : v % 2 ^ bitsFor n < 2 ^ 64)]

theorem lzss_sle_ops (k : Nat) (hk1 : 1 ≤ k) (hk7 : k ≤ 7) (text : List UInt8) (fs : List Factor)
    (h0 : k = 1 ∨ ∃ q, q < text.length ∧ Uncovered fs q) (hn : text.length < 2 ^ 32) (hord : FactorsOrdered text.length 0 fs) :
    ∃ bytes, lzssSleEncode k text fs = .ok bytes ∧ lzssSleOps k bytes = .ok (text.length, opsFrom text fs 0) := by
  obtain ⟨ls, hl1, hl2⟩ := text_literals_announced text fs hord
  have hspec := text_literals_spec text fs hord
  rw [hl1] at hspec
  simp only [Except.ok.injEq] at hspec
  have hne : k ≤ 1 ∨ ls ≠ [] := by
    rcases h0 with h | ⟨q, hpos, hq⟩
    · left; omega
    · right
      have : (text[q], q) ∈ ls := by
        rw [hspec, List.mem_filterMap]
        refine ⟨q, ?_, by rw [List.getElem?_eq_getElem hpos]; rfl⟩
        rw [List.mem_filter]
        refine ⟨List.mem_range.mpr hpos, ?_⟩
        simp only [decide_eq_true_eq]
        exact hq
      exact List.ne_nil_of_mem this
  obtain ⟨rk, r1, r2, r3, r4⟩ := ranking_ok k hk7 ls hne
  have hlong : longestFactor fs ≤ text.length := longest_le _ fs 0 (Nat.zero_le _) hord.len_le
  have hfd : fdistMaxLoop text.length fs 0 0 ≤ text.length := fdist_le _ fs 0 0 (Nat.zero_le _) hord
  have hbits : text.length < 2 ^ bitsFor text.length := lt_two_pow_bitsFor _ (by omega)
  have hshort : shortestFactor fs < 2 ^ 64 := by
    have : ∀ (fs : List Factor) m, m < 2 ^ 64 → fs.foldl (fun m f => min m f.len) m < 2 ^ 64 := by
      intro fs
      induction fs with
      | nil => intro m h; exact h
      | cons g fs ih => intro m h; simp only [List.foldl_cons]; exact ih _ (by omega)
    exact this fs _ (by decide)
  -- the dummy value
  obtain ⟨x, hx⟩ : ∃ x, x = shortestFactor fs % 2 ^ bitsFor text.length := ⟨_, rfl⟩
  have hxlt : x < 2 ^ bitsFor text.length := by rw [hx]; exact Nat.mod_lt _ (Nat.two_pow_pos _)
  have hx64 : x < 2 ^ 64 := by have := Nat.mod_le (shortestFactor fs) (2 ^ bitsFor text.length); omega
  have hxs : fs ≠ [] → x = shortestFactor fs := by
    intro hf
    cases fs with
    | nil => exact absurd rfl hf
    | cons f fs =>
      have h1 := shortest_le (f :: fs) (2 ^ 32 - 1) f (by simp)
      have h2 := hord.len_le f (by simp)
      rw [hx]
      exact Nat.mod_eq_of_lt (by unfold shortestFactor; omega)
  obtain ⟨ts, hts⟩ : ∃ ts, ts = lzssHeaderS text x (longestFactor fs) (fdistMaxLoop text.length fs 0 0) ++
      lzssBodyS text (shortestFactor fs) (longestFactor fs) (fdistMaxLoop text.length fs 0 0) fs 0 := ⟨_, rfl⟩
  have hbodyHas : ∀ t ∈ lzssBodyS text (shortestFactor fs) (longestFactor fs) (fdistMaxLoop text.length fs 0 0) fs 0, t.1.Fits t.2 := by
    intro t ht
    have h1 : ((forget t.1, t.2) : Token) ∈ lzssBody text (shortestFactor fs) (longestFactor fs) (fdistMaxLoop text.length fs 0 0) fs 0 := by
      rw [← forget_body]; exact List.mem_map_of_mem ht
    exact (has_of_forget (lzssBody_has text (shortestFactor fs) (longestFactor fs) _ hn (by omega) hfd fs 0 hord (fun f hf =>
      ⟨shortest_le fs _ f hf, le_longest fs _ f hf⟩) (fun m => Nat.le_of_eq (fdist_max _ _ _ _)) _ h1)).fits
  have hfits : ∀ t ∈ ts, t.1.Fits t.2 := by
    intro t ht
    rw [hts, List.mem_append] at ht
    rcases ht with ht | ht
    · simp only [lzssHeaderS, List.mem_cons, List.not_mem_nil, or_false] at ht
      rcases ht with rfl | rfl | rfl | rfl
      · exact SRng.Has.fits (r := .range 0 (2 ^ 32 - 1)) ⟨Nat.zero_le _, by omega, by decide⟩
      · exact ⟨Nat.zero_le _, by rw [Nat.sub_zero, Nat.sub_zero]; exact hxlt, hx64, by omega⟩
      · exact SRng.Has.fits (r := .range 0 text.length) ⟨Nat.zero_le _, hlong, by omega⟩
      · exact SRng.Has.fits (r := .range 0 text.length) ⟨Nat.zero_le _, hfd, by omega⟩
    · exact hbodyHas t ht
  have hlit : ∀ t ∈ ts, t.1 = .literal → t.2 ∈ rk := by
    intro t ht he
    have htb : t ∈ lzssBodyS text (shortestFactor fs) (longestFactor fs) (fdistMaxLoop text.length fs 0 0) fs 0 := by
      rw [hts, List.mem_append] at ht
      rcases ht with ht | ht
      · simp only [lzssHeaderS, List.mem_cons, List.not_mem_nil, or_false] at ht
        rcases ht with rfl | rfl | rfl | rfl <;> exact absurd he (by simp)
      · exact ht
    have h1 : ((forget t.1, t.2) : Token) ∈ lzssEncode text fs := by
      rw [← forget_encode]
      exact List.mem_map_of_mem (f := fun t => ((forget t.1, t.2) : Token)) (List.mem_append_right _ htb)
    have : t.2 ∈ literalsOf (lzssEncode text fs) := by
      rw [literalsOf, List.mem_filterMap]
      exact ⟨_, h1, by rw [he]; simp [forget]⟩
    rw [hl2] at this
    obtain ⟨y, hy, hye⟩ := List.mem_map.1 this
    rw [← hye]
    exact r4 y hy
  obtain ⟨bits, e1, e2⟩ := encodeAll_yields k (sigmaBits rk.length) hk1 hk7 rk (by omega) rfl [] ts
    (fun t ht => ⟨hfits t ht, hlit t ht⟩) [] (by simp) (by simp)
  have e1' : encodeAll k (sigmaBits rk.length) rk [] (lzssEncodeS text fs) = .ok bits := by
    rw [← e1, hts, lzssEncodeS, lzssHeaderS, lzssHeaderS]
    simp only [List.cons_append, List.nil_append, encodeAll]
    simp only [encode_mod k _ rk _ text.length (shortestFactor fs) (by omega) hshort, ← hx]
  have hlenb := encodeAll_length k (sigmaBits rk.length) rk ts hfits [] bits e1
  have hfl : fs.length ≤ bits.length := by
    have := bodyS_nonlit text (shortestFactor fs) (longestFactor fs) (fdistMaxLoop text.length fs 0 0) fs 0
    rw [hts, List.filter_append, List.length_append] at hlenb
    omega
  refine ⟨BitO.toBytes (header rk ++ bits), ?_, ?_⟩
  · rw [lzssSleEncode, hl1]
    simp only
    rw [run, r1]
    simp only
    rw [e1']
  · rw [List.append_nil] at e2
    have hdec := lzssDecodeS_encode sleDec text fs hn hord x hxs ((header rk ++ bits).length + 1) (by rw [List.length_append]; omega)
      ⟨k, sigmaBits rk.length, rk, [], bits⟩ ⟨k, sigmaBits rk.length, rk, [], []⟩ rfl (by rw [← hts]; exact yields_sdec e2)
    rw [lzssSleOps, bitsOf_toBytes, open_header k rk (by omega) r3 bits]
    exact hdec

/-- **C27, with C15/C34.** Any correct LZSS factorization of any non-empty text, coded by `encode_text` with the SLE coder
(announced literals = `TextLiterals`), is decoded to the text, for every k-mer length from 1 to 7 (and also for the empty text when
`k = 1`). -/
theorem lzss_sle_lossless_partial (k : Nat) (hk1 : 1 ≤ k) (hk7 : k ≤ 7) (text : List UInt8) (fs : List Factor)
    (h0 : k = 1 ∨ text ≠ []) (hn : text.length < 2 ^ 32) (hord : FactorsOrdered text.length 0 fs) (hm : FactorsMatch text fs) :
    ∃ bytes, lzssSleEncode k text fs = .ok bytes ∧ lzssSleDecode k bytes = .ok text := by
  obtain ⟨bytes, h1, h2⟩ := lzss_sle_ops k hk1 hk7 text fs (by
    rcases h0 with h | h
    · exact Or.inl h
    · refine Or.inr ⟨0, List.length_pos_iff.mpr h, ?_⟩
      intro f hf hc
      have := (hm f hf).1
      omega) hn hord
  have hback := backAt_ops text fs 0 hord hm
  simp only [backAt, List.take_zero, List.nil_append, Nat.sub_zero, List.take_length, Nat.sub_self, List.replicate_zero, List.append_nil] at hback
  refine ⟨bytes, h1, ?_⟩
  rw [lzssSleDecode, h2]
  simp only [hback]

/-- **C27, with C16.** `lzss_lcp` with the SLE coder, from the text index to the file and back. -/
theorem lzss_lcp_sle_lossless_partial (k : Nat) (hk1 : 1 ≤ k) (hk7 : k ≤ 7) (pk : Packs) (threshold : Nat) (text : List UInt8)
    (sa : List Nat) (hth : 1 ≤ threshold) (hsa : IsSA text sa) (hs : Sentinel text) (hlen : text.length < 2 ^ 32) :
    ∃ A fs bytes, textDS pk text sa = .ok A ∧ lcpFactors A text.length threshold = .ok fs ∧
      lzssSleEncode k text fs = .ok bytes ∧ lzssSleDecode k bytes = .ok text := by
  obtain ⟨A, fs, e1, e2, -, ho, hm⟩ := lzss_lcp_factors pk threshold text sa hth hsa hs hlen
  obtain ⟨bytes, h1, h2⟩ := lzss_sle_lossless_partial k hk1 hk7 text fs (Or.inr (by
    rintro rfl
    exact absurd hs (by simp [Sentinel]))) hlen ho hm
  exact ⟨A, fs, bytes, e1, e2, h1, h2⟩

example : (1 ≤ 3) ∧ (3 ≤ 7) ∧ (1 ≤ 2) ∧ IsSA [97, 98, 97, 98, 0] [4, 2, 0, 3, 1] ∧ Sentinel [97, 98, 97, 98, 0] :=
  ⟨by decide, by decide, by decide, isSA_abab, sentinel_abab⟩

end SLE
end Tdc
