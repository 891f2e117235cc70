import Verif.Lemmas.HuffmanCanon
import Verif.Props.LZSSLCP
import Verif.Props.LZSSCoding
import Mathlib.Data.List.Sort

/-!
# Properties C25 (Huffman coder) and C26 (Huffman code lengths)

`StdLib` stands for any conforming implementation of the C++ heap and sort algorithms.
-/

namespace Tdc

open Huff

/-- **C26.** For every frequency vector of at least two symbols (with a total below 2^64) the code lengths are computed without
a fault, are positive and at most 91, and satisfy Kraft's equality Σ 2^(-len) = 1: the code is complete. -/
theorem huffman_kraft (std : StdLib) (freqs : List Nat) (h2 : 2 ≤ freqs.length) (hpos : ∀ f ∈ freqs, 0 < f)
    (hsum : freqs.sum < 2 ^ 64) :
    ∃ lens, genCodelengths std freqs = .ok lens ∧ lens.length = freqs.length ∧ (∀ l ∈ lens, 0 < l ∧ l ≤ 91) ∧
      ∀ L, (∀ l ∈ lens, l ≤ L) → (lens.map fun l => 2 ^ (L - l)).sum = 2 ^ L := by
  obtain ⟨T, lens, hg, hlen, -, -, hfib, hperm, hpos', ⟨e, he, hT⟩, -, -⟩ := genCodelengths_spec std freqs h2 hpos hsum
  have hh : T.height ≤ 91 := by
    by_contra hge
    have h1 : Nat.fib 94 ≤ Nat.fib (T.height + 2) := Nat.fib_mono (by omega)
    have := fib_big
    omega
  refine ⟨lens, hg, hlen, fun l hl => ⟨hpos' l hl, ?_⟩, fun L hL => ?_⟩
  · obtain ⟨p, hp, rfl⟩ := List.mem_map.1 (hperm.mem_iff.1 hl)
    have := HT.depth_bounds hp
    omega
  · rw [(hperm.map _).sum_eq, List.map_map]
    exact HT.kraft L 0 T (by have := hL e he; omega)

/-- **C36.** The code is optimal: no code lengths that satisfy Kraft's inequality (in particular no prefix free code,
`huffman_optimal`) encode a text with these frequencies in fewer bits. -/
theorem huffman_optimal_kraft (std : StdLib) (freqs : List Nat) (h2 : 2 ≤ freqs.length) (hpos : ∀ f ∈ freqs, 0 < f)
    (hsum : freqs.sum < 2 ^ 64) :
    ∃ lens, genCodelengths std freqs = .ok lens ∧ lens.length = freqs.length ∧
      ∀ lens' : List Nat, lens'.length = freqs.length →
        ∀ L, (∀ l ∈ lens', l ≤ L) → (lens'.map fun l => 2 ^ (L - l)).sum ≤ 2 ^ L →
          (List.zipWith (· * ·) freqs lens).sum ≤ (List.zipWith (· * ·) freqs lens').sum := by
  obtain ⟨T, lens, hg, hlen, -, -, -, -, -, -, hz, hopt⟩ := genCodelengths_spec std freqs h2 hpos hsum
  refine ⟨lens, hg, hlen, fun lens' hl' L hL hk => ?_⟩
  have h1 := hopt (freqs.zip lens') L (by rw [List.map_fst_zip (by omega)])
    (by rw [List.map_snd_zip (by omega)]; exact ⟨hL, hk⟩)
  have h3 := HT.cost_eq (fun i => freqs.getD (i - freqs.length) 0) 0 T
  have h4 := codeCost_perm hz
  have hzip : ∀ (a b : List Nat), codeCost (a.zip b) = (List.zipWith (· * ·) a b).sum := by
    intro a b
    rw [codeCost, List.zip, List.map_zipWith]
  rw [hzip] at h1 h4
  rw [codeCost, List.map_map] at h4
  rw [h4]
  have h5 : ((T.leafDepths 0).map ((fun p : Nat × Nat => p.1 * p.2) ∘ fun p => (freqs.getD (p.1 - freqs.length) 0, p.2))).sum
      = T.cost fun i => freqs.getD (i - freqs.length) 0 := by
    rw [Nat.zero_mul, Nat.add_zero] at h3
    exact h3
  omega

/-- **C36.** The code is optimal: a text with these frequencies takes at least as many bits with any other prefix free code
`ws` (one word per symbol). -/
theorem huffman_optimal (std : StdLib) (freqs : List Nat) (h2 : 2 ≤ freqs.length) (hpos : ∀ f ∈ freqs, 0 < f)
    (hsum : freqs.sum < 2 ^ 64) :
    ∃ lens, genCodelengths std freqs = .ok lens ∧
      ∀ ws : List (List Bool), ws.length = freqs.length → (ws.Pairwise fun a b => ¬ a <+: b ∧ ¬ b <+: a) →
        (List.zipWith (· * ·) freqs lens).sum ≤ (List.zipWith (· * ·) freqs (ws.map List.length)).sum := by
  obtain ⟨lens, hg, -, hopt⟩ := huffman_optimal_kraft std freqs h2 hpos hsum
  refine ⟨lens, hg, fun ws hl hpf => ?_⟩
  obtain ⟨-, hmax, -⟩ := foldl_max_spec (ws.map List.length) 0
  refine hopt _ (by simpa using hl) _ hmax ?_
  rw [List.map_map]
  exact kraft_of_prefix_free _ ws hpf fun w hw => hmax _ (List.mem_map_of_mem hw)

/-- three symbols; a prefix free code for them -/
example : (2 ≤ [5, 1, 2].length) ∧ (∀ f ∈ [5, 1, 2], 0 < f) ∧ [5, 1, 2].sum < 2 ^ 64 ∧
    ([[true, true], [false], [true, false]] : List (List Bool)).Pairwise fun a b => ¬ a <+: b ∧ ¬ b <+: a := by decide

/-- What the constructors set up. -/
theorem huff_setup (std : StdLib) (ls : List UInt8) (hls : ls.length < 2 ^ 32) (h255 : (255 : UInt8) ∉ ls) :
    ∃ m hdr d, encoder std ls = .ok (m, hdr) ∧ (∀ rest, decoder (hdr ++ rest) = .ok (d, rest)) ∧
      (∀ r v, r ≠ .literal → encode ls m r v = .ok (bitCoder.enc r v) ∧ decode d r = bitCoder.dec r) ∧
      ∀ c ∈ ls, ∃ bits, encode ls m .literal c.toNat = .ok bits ∧ bits ≠ [] ∧
        ∀ rest, decode d .literal (bits ++ rest) = .ok (c.toNat, rest) := by
  obtain ⟨C, hC⟩ : ∃ C, C = countAlphabet ls fun _ => 0 := ⟨_, rfl⟩
  have hcount : ∀ j, C j = (ls.map UInt8.toNat).count j := by
    intro j; rw [hC, countAlphabet_spec ls _ (by simpa using hls)]; simp
  have hmem : ∀ c ∈ ls, c.toNat ∈ effectiveAlphabet C := by
    intro c hc
    rw [mem_effectiveAlphabet, hcount]
    refine ⟨c.toNat_lt, ?_⟩
    have : 0 < (ls.map UInt8.toNat).count c.toNat := List.count_pos_iff.2 (List.mem_map_of_mem hc)
    omega
  have hlt : ∀ a ∈ effectiveAlphabet C, a < 255 := by
    intro a ha
    rw [mem_effectiveAlphabet, hcount] at ha
    obtain ⟨h1, h2⟩ := ha
    have : a ∈ ls.map UInt8.toNat := List.count_pos_iff.1 (by omega)
    obtain ⟨c, hc, rfl⟩ := List.mem_map.1 this
    rcases Nat.lt_or_ge c.toNat 255 with h | h
    · exact h
    · exfalso
      apply h255
      have : c = 255 := UInt8.toNat.inj (by show c.toNat = 255; omega)
      exact this ▸ hc
  by_cases h1 : (effectiveAlphabet C).length ≤ 1
  · refine ⟨.trivial, [false], none, ?_, fun rest => rfl, ?_, ?_⟩
    · rw [encoder, ← hC, if_pos h1]
    · intro r v hr
      cases r with
      | literal => exact absurd rfl hr
      | range a b => exact ⟨rfl, rfl⟩
      | bit => exact ⟨rfl, rfl⟩
    · intro c hc
      refine ⟨writeInt (c.toNat % 256) 8, ?_, writeInt_ne_nil _ _ (by omega), ?_⟩
      · rw [encode, if_neg]
        intro he
        rw [List.isEmpty_iff] at he
        rw [he] at hc
        simp at hc
      · intro rest
        have := c.toNat_lt
        rw [decode, Nat.mod_eq_of_lt (by omega), rdInt8 _ (by omega)]
  · have hlen255 : (effectiveAlphabet C).length ≤ 255 := by
      have : (effectiveAlphabet C) ⊆ List.range 255 := fun a ha => List.mem_range.2 (hlt a ha)
      have := (List.subperm_of_subset (effectiveAlphabet_nodup C) this).length_le
      simpa using this
    have hsum : ((effectiveAlphabet C).map C).sum < 2 ^ 32 := by
      have h3 := sum_counts_le (ls.map UInt8.toNat) (effectiveAlphabet C) (effectiveAlphabet_nodup C)
      rw [show (effectiveAlphabet C).map C = (effectiveAlphabet C).map fun k => (ls.map UInt8.toNat).count k from
        List.map_congr_left fun a _ => hcount a]
      rw [List.length_map] at h3
      omega
    obtain ⟨t, ht, hgood, hperm⟩ := genTable_spec std C (by omega) hlen255 hsum
    have hnd : t.chars.Nodup := hperm.nodup_iff.2 (effectiveAlphabet_nodup C)
    have hc255 : ∀ c ∈ t.chars, c < 255 := fun c hc => hlt c (hperm.mem_iff.1 hc)
    obtain ⟨m, hm1, hm2, -⟩ := mapLoop_spec t.chars 0 (fun _ => none) hnd hc255 (by rw [hperm.length_eq]; omega)
    obtain ⟨ps, hps, hdec⟩ := decoder_spec t hgood (fun c hc => by have := hc255 c hc; omega)
    refine ⟨.table t m, true :: tableEncode t, some (t.chars, ps, firstCodes t.numl), ?_, hdec, ?_, ?_⟩
    · rw [encoder, ← hC, if_neg h1, ht]; simp only; rw [hm1]
    · intro r v hr
      cases r with
      | literal => exact absurd rfl hr
      | range a b => exact ⟨rfl, rfl⟩
      | bit => exact ⟨rfl, rfl⟩
    · intro c hc
      obtain ⟨e, he⟩ := List.getElem?_of_mem (hperm.mem_iff.2 (hmem c hc))
      have hcl := hc255 _ (List.mem_of_getElem? he)
      obtain ⟨bits, hb1, hb2, hb3⟩ := literal_spec t hgood m ps e c.toNat he hcl (by rw [hm2 e _ he, Nat.zero_add]) hps
      exact ⟨bits, by rw [encode, Nat.mod_eq_of_lt (by omega)]; exact hb1, hb2, hb3⟩

/-- **C25.** Whatever literals (without byte 255) are announced to the coder, and whatever sequence of literals from the
announced ones, ranged values and bits is encoded then: the decoder, which gets only the file, returns the sequence.
Partial: byte 255 is excluded, see `huffman_byte255_broken`. -/
theorem huffman_lossless_partial (std : StdLib) (ls : List UInt8) (ts : List Token) (hls : ls.length < 2 ^ 32)
    (h255 : (255 : UInt8) ∉ ls) (hts : ∀ t ∈ ts, t.1.Has t.2)
    (hlit : ∀ v, (Rng.literal, v) ∈ ts → ∃ c ∈ ls, v = c.toNat) :
    ∃ bytes, writeFile std ls ts = .ok bytes ∧ readFile (ts.map Prod.fst) bytes = .ok (ts.map Prod.snd, []) := by
  obtain ⟨m, hdr, d, h1, h2, h3, h4⟩ := huff_setup std ls hls h255
  have key : ∀ ts : List Token, (∀ t ∈ ts, t.1.Has t.2) → (∀ v, (Rng.literal, v) ∈ ts → ∃ c ∈ ls, v = c.toNat) →
      ∃ bits, encodeAll ls m ts = .ok bits ∧ (decCoder d).decAll (ts.map Prod.fst) bits = .ok (ts.map Prod.snd, []) := by
    intro ts
    induction ts with
    | nil => intro _ _; exact ⟨[], rfl, rfl⟩
    | cons t ts ih =>
      obtain ⟨r, v⟩ := t
      intro hts hlit
      obtain ⟨rest, hr1, hr2⟩ := ih (fun t ht => hts t (by simp [ht])) (fun v hv => hlit v (by simp [hv]))
      have hone : ∃ bits, encode ls m r v = .ok bits ∧ ∀ rest, decode d r (bits ++ rest) = .ok (v, rest) := by
        by_cases hr : r = .literal
        · subst hr
          obtain ⟨c, hc, rfl⟩ := hlit v (by simp)
          obtain ⟨bits, hb1, -, hb3⟩ := h4 c hc
          exact ⟨bits, hb1, hb3⟩
        · obtain ⟨ha, hb⟩ := h3 r v hr
          refine ⟨_, ha, fun rest => ?_⟩
          rw [hb]
          exact bitCoder_lawful.dec_enc r v rest (hts (r, v) (by simp))
      obtain ⟨bits, hb1, hb2⟩ := hone
      refine ⟨bits ++ rest, ?_, ?_⟩
      · rw [encodeAll, hb1]; simp only; rw [hr1]
      · simp only [List.map_cons, UCoder.decAll]
        rw [show (decCoder d).dec r (bits ++ rest) = .ok (v, rest) from hb2 rest]
        simp only
        rw [hr2]
  obtain ⟨bits, hb1, hb2⟩ := key ts hts hlit
  refine ⟨BitO.toBytes (hdr ++ bits), by rw [writeFile, h1]; simp only; rw [hb1], ?_⟩
  rw [readFile, bitsOf_toBytes, h2]
  exact hb2

/-- hypotheses met: "abac" announced, "a", a length, "c" encoded -/
example : ([97, 98, 97, 99] : List UInt8).length < 2 ^ 32 ∧ (255 : UInt8) ∉ ([97, 98, 97, 99] : List UInt8) ∧
    (∀ t ∈ ([(.literal, 97), (.range 2 9, 5), (.literal, 99)] : List Token), t.1.Has t.2) ∧
    (∀ v, (Rng.literal, v) ∈ ([(.literal, 97), (.range 2 9, 5), (.literal, 99)] : List Token) →
      ∃ c ∈ ([97, 98, 97, 99] : List UInt8), v = c.toNat) := by
  refine ⟨by decide, by decide, by decide, ?_⟩
  intro v hv
  simp at hv
  rcases hv with rfl | rfl
  · exact ⟨97, by simp, rfl⟩
  · exact ⟨99, by simp, rfl⟩

theorem gather_ok {v : List Nat} : ∀ {is r : List Nat}, gather v is = .ok r → r = is.map (look v)
  | [], r, h => by simp [gather] at h; simp [h]
  | i :: is, r, h => by
    rw [gather] at h
    cases hv : vget v i with
    | error e => rw [hv] at h; simp at h
    | ok x =>
      rw [hv] at h
      simp only at h
      cases hg : gather v is with
      | error e => rw [hg] at h; simp at h
      | ok xs =>
        rw [hg] at h
        simp only [Except.ok.injEq] at h
        rw [← h, gather_ok hg]
        have hx : v[i]? = some x := by
          unfold vget at hv
          split at hv
          · simp at hv; rename_i h2; rw [h2, hv]
          · simp at hv
        simp [look, hx]

theorem genTable_chars {std : StdLib} {C : Nat → Nat} {t : Table} (h : genTable std C = .ok t) :
    t.chars.Perm (effectiveAlphabet C) := by
  unfold genTable at h
  simp only at h
  split at h
  · simp at h
  · rename_i cl _
    unfold canonTable at h
    simp only at h
    split at h
    · rename_i lens chars hl hc
      have hp : chars.Perm (effectiveAlphabet C) := by
        rw [gather_ok hc]
        refine ((std.sort_perm _ _).map _).trans (List.Perm.of_eq ?_)
        rw [map_look_range]
      split at h
      · simp at h
      · split at h
        · simp at h
        · simp only [Except.ok.injEq] at h
          subst h
          exact hp
    · simp at h

theorem mapLoop_255 : ∀ (cs : List Nat) (i : Nat) (m : Nat → Option Nat), 255 ∈ cs → mapLoop cs i m = .error .ub
  | [], _, _, h => by simp at h
  | c :: cs, i, m, h => by
    rw [mapLoop]
    by_cases hc : c < 255
    · rw [if_pos hc]
      refine mapLoop_255 cs _ _ ?_
      rcases List.mem_cons.1 h with rfl | h
      · omega
      · exact h
    · rw [if_neg hc]

/-- **C25 (limit of the claim).** As soon as byte 255 and another byte are announced, the constructor of the encoder writes
out of the bounds of an array: there is no defined result, whatever the other literals are. -/
theorem huffman_byte255_broken (std : StdLib) (ls : List UInt8) (ts : List Token) (hls : ls.length < 2 ^ 32)
    (h255 : (255 : UInt8) ∈ ls) (c : UInt8) (hc : c ∈ ls) (hne : c ≠ 255) (bytes : List UInt8) :
    writeFile std ls ts ≠ .ok bytes := by
  obtain ⟨C, hC⟩ : ∃ C, C = countAlphabet ls fun _ => 0 := ⟨_, rfl⟩
  have hcount : ∀ j, C j = (ls.map UInt8.toNat).count j := by
    intro j; rw [hC, countAlphabet_spec ls _ (by simpa using hls)]; simp
  have hmem : ∀ c ∈ ls, c.toNat ∈ effectiveAlphabet C := by
    intro c hc
    rw [mem_effectiveAlphabet, hcount]
    refine ⟨c.toNat_lt, ?_⟩
    have : 0 < (ls.map UInt8.toNat).count c.toNat := List.count_pos_iff.2 (List.mem_map_of_mem hc)
    omega
  have h1 : ¬ (effectiveAlphabet C).length ≤ 1 := by
    intro hle
    have h2 : c.toNat = (255 : UInt8).toNat := by
      have ha := hmem c hc
      have hb := hmem _ h255
      match hx : effectiveAlphabet C with
      | [] => rw [hx] at ha; simp at ha
      | [x] => rw [hx] at ha hb; simp only [List.mem_singleton] at ha hb; rw [ha, hb]
      | x :: y :: l => rw [hx] at hle; simp at hle
    exact hne (UInt8.toNat.inj h2)
  intro h
  rw [writeFile] at h
  have henc : ∀ x, encoder std ls ≠ .ok x := by
    intro x hx
    rw [encoder, ← hC, if_neg h1] at hx
    cases hg : genTable std C with
    | error e => rw [hg] at hx; simp at hx
    | ok t =>
      rw [hg] at hx
      simp only at hx
      rw [mapLoop_255 _ _ _ ((genTable_chars hg).mem_iff.2 (hmem _ h255))] at hx
      simp at hx
  cases he : encoder std ls with
  | error e => rw [he] at h; simp at h
  | ok x => exact henc x he

/-! ## lzss_lcp with the Huffman coder -/

/-- `encode_text` with the Huffman coder: the announced literals are `TextLiterals(text, factors)`
(compressors/LZSSLCPCompressor.hpp:118-123, compressors/LCPCompressor.hpp:132-138). -/
def lzssHuffEncode (std : StdLib) (text : List UInt8) (fs : List Factor) : Res (List UInt8) :=
  match textLiterals text fs with
  | .error e => .error e
  | .ok ls => writeFile std (ls.map Prod.fst) (lzssEncode text fs)

/-- `decode_text` with the Huffman coder -/
def lzssHuffDecode (bytes : List UInt8) : Res (List UInt8) :=
  match decoder (bitsOf bytes) with
  | .error e => .error e
  | .ok (d, bs) => lzssDecodeBack (decCoder d) bs

/-- the calls `decode_text` makes on its decode buffer -/
def lzssHuffOps (bytes : List UInt8) : Res (Nat × List DecOp) :=
  match decoder (bitsOf bytes) with
  | .error e => .error e
  | .ok (d, bs) => lzssDecode (decCoder d) bs

theorem lzss_huffman_ops (std : StdLib) (text : List UInt8) (fs : List Factor) (hn : text.length < 2 ^ 32)
    (h255 : (255 : UInt8) ∉ text) (hord : FactorsOrdered text.length 0 fs) :
    ∃ bytes, lzssHuffEncode std text fs = .ok bytes ∧ lzssHuffOps bytes = .ok (text.length, opsFrom text fs 0) := by
  obtain ⟨ls, hl1, hl2⟩ := text_literals_announced text fs hord
  have hspec := text_literals_spec text fs hord
  rw [hl1] at hspec
  simp only [Except.ok.injEq] at hspec
  have hsub : ∀ x ∈ ls, x.1 ∈ text := by
    intro x hx
    rw [hspec, List.mem_filterMap] at hx
    obtain ⟨q, -, hq⟩ := hx
    cases ht : text[q]? with
    | none => rw [ht] at hq; simp at hq
    | some c => rw [ht] at hq; simp only [Option.map_some, Option.some.injEq] at hq; rw [← hq]; exact List.mem_of_getElem? ht
  have hlen : ls.length ≤ text.length := by
    have h1 : ls.length ≤ ((List.range text.length).filter fun q => @decide (Uncovered fs q) (Classical.propDecidable _)).length := by
      rw [hspec]; exact List.length_filterMap_le _ _
    have h2 := List.length_filter_le (fun q => @decide (Uncovered fs q) (Classical.propDecidable _)) (List.range text.length)
    rw [List.length_range] at h2
    omega
  obtain ⟨m, hdr, d, h1, h2, h3, h4⟩ := huff_setup std (ls.map Prod.fst) (by rw [List.length_map]; omega) (by
    intro h
    obtain ⟨x, hx, he⟩ := List.mem_map.1 h
    exact h255 (he ▸ hsub x hx))
  have hlitmem : ∀ t ∈ lzssEncode text fs, t.1 = .literal → ∃ c ∈ ls.map Prod.fst, t.2 = c.toNat := by
    intro t ht he
    have : t.2 ∈ literalsOf (lzssEncode text fs) := by
      rw [literalsOf, List.mem_filterMap]
      exact ⟨t, ht, by rw [if_pos he]⟩
    rw [hl2] at this
    obtain ⟨x, hx, hxe⟩ := List.mem_map.1 this
    exact ⟨x.1, List.mem_map_of_mem hx, hxe.symm⟩
  obtain ⟨c, hc⟩ : ∃ c : UCoder, c = ⟨fun r v => match encode (ls.map Prod.fst) m r v with | .ok b => b | .error _ => [],
    decode d, fun _ => none⟩ := ⟨_, rfl⟩
  have henc : ∀ r v, r ≠ .literal → c.enc r v = CoderName.bit.coder.enc r v := by
    intro r v hr; rw [hc]; simp only; rw [(h3 r v hr).1]; rfl
  have hdec : ∀ r, r ≠ .literal → c.dec r = CoderName.bit.coder.dec r := by
    intro r hr; rw [hc]; simp only; rw [(h3 r 0 hr).2]; rfl
  have hlitok : ∀ t ∈ lzssEncode text fs, t.1 = .literal → c.TokOk t := by
    rintro ⟨r, v⟩ ht hr
    obtain ⟨x, hx, hv⟩ := hlitmem _ ht hr
    simp only at hr hv
    subst hr hv
    obtain ⟨bits, hb1, hb2, hb3⟩ := h4 x hx
    have hbits : c.enc .literal x.toNat = bits := by rw [hc]; simp only; rw [hb1]
    refine ⟨?_, by simp only; rw [hbits]; exact hb2⟩
    intro rest
    simp only
    rw [hbits, hc]
    exact hb3 rest
  have hmain := lzss_mixed .bit c text fs hn hord henc hdec hlitok
  have hall : ∀ ts : List Token, (∀ t ∈ ts, t.1 = .literal → ∃ c ∈ ls.map Prod.fst, t.2 = c.toNat) →
      encodeAll (ls.map Prod.fst) m ts = .ok (c.encAll ts) := by
    intro ts
    induction ts with
    | nil => intro _; rfl
    | cons t ts ih =>
      obtain ⟨r, v⟩ := t
      intro h
      have hone : encode (ls.map Prod.fst) m r v = .ok (c.enc r v) := by
        by_cases hr : r = .literal
        · obtain ⟨x, hx, hv⟩ := h (r, v) (by simp) hr
          simp only at hv
          subst hr hv
          obtain ⟨bits, hb1, -, -⟩ := h4 x hx
          rw [hb1, hc]; simp only; rw [hb1]
        · rw [(h3 r v hr).1, henc r v hr]; rfl
      rw [encodeAll, hone]
      simp only
      rw [ih (fun t ht => h t (by simp [ht])), encAll_cons]
  refine ⟨BitO.toBytes (hdr ++ c.encAll (lzssEncode text fs)), ?_, ?_⟩
  · rw [lzssHuffEncode, hl1]; simp only; rw [writeFile, h1]; simp only; rw [hall _ hlitmem]
  · rw [lzssHuffOps, bitsOf_toBytes, h2]
    have : (decCoder d).dec = c.dec := by rw [hc]; rfl
    simp only
    rw [lzssDecode_congr this]
    exact hmain

/-- **C25, with C15/C34.** An LZSS factorization coded with the Huffman coder is decoded to the text, for every text without byte
255 and every correct factorization of it. -/
theorem lzss_huffman_lossless_partial (std : StdLib) (text : List UInt8) (fs : List Factor) (hn : text.length < 2 ^ 32)
    (h255 : (255 : UInt8) ∉ text) (hord : FactorsOrdered text.length 0 fs) (hm : FactorsMatch text fs) :
    ∃ bytes, lzssHuffEncode std text fs = .ok bytes ∧ lzssHuffDecode bytes = .ok text := by
  obtain ⟨bytes, h1, h2⟩ := lzss_huffman_ops std text fs hn h255 hord
  refine ⟨bytes, h1, ?_⟩
  rw [lzssHuffOps] at h2
  rw [lzssHuffDecode]
  revert h2
  rcases decoder (bitsOf bytes) with e | ⟨d, bs⟩
  · intro h2; cases h2
  · intro h2
    exact lzssDecodeBack_of_ops _ _ text fs h2 hord hm

/-- **C25, with C16.** `lzss_lcp` with the Huffman coder, from the text index to the file and back. -/
theorem lzss_lcp_huffman_lossless_partial (std : StdLib) (pk : Packs) (threshold : Nat) (text : List UInt8) (sa : List Nat)
    (hth : 1 ≤ threshold) (hsa : IsSA text sa) (hs : Sentinel text) (hlen : text.length < 2 ^ 32) (h255 : (255 : UInt8) ∉ text) :
    ∃ A fs bytes, textDS pk text sa = .ok A ∧ lcpFactors A text.length threshold = .ok fs ∧
      lzssHuffEncode std text fs = .ok bytes ∧ lzssHuffDecode bytes = .ok text := by
  obtain ⟨A, fs, e1, e2, -, ho, hm⟩ := lzss_lcp_factors pk threshold text sa hth hsa hs hlen
  obtain ⟨bytes, h1, h2⟩ := lzss_huffman_lossless_partial std text fs hlen h255 ho hm
  exact ⟨A, fs, bytes, e1, e2, h1, h2⟩

example : (1 ≤ 2) ∧ IsSA [97, 98, 97, 98, 0] [4, 2, 0, 3, 1] ∧ Sentinel [97, 98, 97, 98, 0] ∧
    (255 : UInt8) ∉ ([97, 98, 97, 98, 0] : List UInt8) := ⟨by decide, isSA_abab, sentinel_abab, by decide⟩

/-! ## There are such standard libraries -/

/-- An implementation with sorted lists. -/
def stdSorted : StdLib where
  valid _ _ := True
  make _ l := l
  pop w l := l.insertionSort fun a b => w b ≤ w a
  push _ l := l
  sort k l := l.insertionSort fun a b => k a ≤ k b
  valid_congr _ _ _ _ _ := trivial
  make_perm _ _ := .refl _
  make_valid _ _ := trivial
  pop_perm _ _ := List.perm_insertionSort _ _
  pop_spec w l _ base m h := by
    refine ⟨fun x hx => ?_, trivial⟩
    have hs : (l.insertionSort fun a b => w b ≤ w a).Pairwise fun a b => w b ≤ w a := by
      haveI : Std.Total fun a b : Nat => w b ≤ w a := ⟨fun a b => Nat.le_total _ _⟩
      haveI : IsTrans Nat fun a b => w b ≤ w a := ⟨fun a b c h1 h2 => Nat.le_trans h2 h1⟩
      exact List.pairwise_insertionSort _ _
    rw [h, List.pairwise_append] at hs
    have hx' := (List.perm_insertionSort (fun a b => w b ≤ w a) l).mem_iff.2 hx
    rw [h, List.mem_append, List.mem_singleton] at hx'
    rcases hx' with hx' | rfl
    · exact hs.2.2 x hx' m (by simp)
    · exact Nat.le_refl _
  push_perm _ _ := .refl _
  push_valid _ _ _ _ := trivial
  sort_perm _ _ := List.perm_insertionSort _ _
  sort_sorted k l := by
    haveI : Std.Total fun a b : Nat => k a ≤ k b := ⟨fun a b => Nat.le_total _ _⟩
    haveI : IsTrans Nat fun a b => k a ≤ k b := ⟨fun a b c h1 h2 => Nat.le_trans h1 h2⟩
    exact List.pairwise_insertionSort _ _

/-- a tree with code lengths 1, 2, 3, 3 -/
example : genCodelengths stdSorted [5, 1, 1, 2] = .ok [1, 3, 3, 2] := by decide

/-- "abacaaadd": characters by code length, codewords 1, 01, 000, 001 -/
example : (genTable stdSorted (countAlphabet [97, 98, 97, 99, 97, 97, 97, 100, 100] fun _ => 0)).map
    (fun t => (t.chars, t.numl, t.codewords, t.lens)) = .ok ([97, 100, 98, 99], [1, 1, 2], [1, 1, 0, 1], [1, 2, 3, 3]) := by decide

end Tdc
