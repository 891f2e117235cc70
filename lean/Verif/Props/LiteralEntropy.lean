import Verif.Model.LiteralEntropy
import Verif.Props.Huffman
import Verif.Props.SLE

/-!
# C78: the literal encoder with the entropy coders
-/

namespace Tdc

open Huff in
theorem litHuff_encode {ls : List UInt8} {m : Huff.Mode} {d : Huff.DecState} (h : ∀ c ∈ ls, ∃ bits, encode ls m .literal c.toNat = .ok bits ∧ bits ≠ [] ∧
    ∀ rest, decode d .literal (bits ++ rest) = .ok (c.toNat, rest)) : ∀ text : List UInt8, (∀ c ∈ text, c ∈ ls) →
    ∃ bits, encodeAll ls m (literalTokens text) = .ok bits ∧ ∀ fuel, bits.length < fuel → literalLoop (decCoder d) fuel bits = .ok text
  | [], _ => ⟨[], rfl, fun fuel hf => by cases fuel with
    | zero => simp at hf
    | succ f => simp [literalLoop]⟩
  | c :: text, hm => by
    obtain ⟨b, h1, h2, h3⟩ := h c (hm c (by simp))
    obtain ⟨bits, h4, h5⟩ := litHuff_encode h text (fun c hc => hm c (by simp [hc]))
    refine ⟨b ++ bits, ?_, fun fuel hf => ?_⟩
    · show encodeAll ls m ((.literal, c.toNat) :: literalTokens text) = _
      rw [encodeAll, h1]
      simp only [h4]
    · cases fuel with
      | zero => simp at hf
      | succ f =>
        have hpos := List.length_pos_iff.2 h2
        rw [List.length_append] at hf
        have hne : (b ++ bits).isEmpty = false := by
          cases b with
          | nil => exact absurd rfl h2
          | cons x b => rfl
        have hd : (decCoder d).dec .literal (b ++ bits) = .ok (c.toNat, bits) := h3 bits
        rw [literalLoop, hne]
        simp only [hd, h5 f (by omega)]
        simp

theorem litHuff_of_setup (std : StdLib) (text : List UInt8) (h : ∃ m hdr d, Huff.encoder std text = .ok (m, hdr) ∧ (∀ rest, Huff.decoder (hdr ++ rest) = .ok (d, rest)) ∧
    ∀ c ∈ text, ∃ bits, Huff.encode text m .literal c.toNat = .ok bits ∧ bits ≠ [] ∧ ∀ rest, Huff.decode d .literal (bits ++ rest) = .ok (c.toNat, rest)) :
    ∃ z, litHuffCompress std text = .ok z ∧ litHuffDecompress z = .ok text := by
  obtain ⟨m, hdr, d, h1, h2, h3⟩ := h
  obtain ⟨bits, h4, h5⟩ := litHuff_encode h3 text (fun c hc => hc)
  refine ⟨BitO.toBytes (hdr ++ bits), ?_, ?_⟩
  · simp only [litHuffCompress, Huff.writeFile, h1, h4]
  · simp only [litHuffDecompress, bitsOf_toBytes, h2]
    exact h5 _ (Nat.lt_succ_self _)

open Huff in
theorem setup_255 (std : StdLib) (ls : List UInt8) (hls : ls.length < 2 ^ 32) (h : ∀ c ∈ ls, c = 255) :
    ∃ m hdr d, encoder std ls = .ok (m, hdr) ∧ (∀ rest, decoder (hdr ++ rest) = .ok (d, rest)) ∧
      ∀ c ∈ ls, ∃ bits, encode ls m .literal c.toNat = .ok bits ∧ bits ≠ [] ∧ ∀ rest, decode d .literal (bits ++ rest) = .ok (c.toNat, rest) := by
  obtain ⟨C, hC⟩ : ∃ C, C = countAlphabet ls fun _ => 0 := ⟨_, rfl⟩
  have hcount : ∀ j, C j = (ls.map UInt8.toNat).count j := by
    intro j; rw [hC, countAlphabet_spec ls _ (by simpa using hls)]; simp
  have h1 : (effectiveAlphabet C).length ≤ 1 := by
    have : effectiveAlphabet C ⊆ [255] := by
      intro a ha
      rw [mem_effectiveAlphabet, hcount] at ha
      have : a ∈ ls.map UInt8.toNat := List.count_pos_iff.1 (by omega)
      obtain ⟨c, hc, rfl⟩ := List.mem_map.1 this
      rw [h c hc]
      simp
    simpa using (List.subperm_of_subset (effectiveAlphabet_nodup C) this).length_le
  refine ⟨.trivial, [false], none, by rw [encoder, ← hC, if_pos h1], fun rest => rfl, fun c hc => ?_⟩
  refine ⟨writeInt (c.toNat % 256) 8, ?_, writeInt_ne_nil _ _ (by omega), fun rest => ?_⟩
  · rw [encode, if_neg]
    intro he
    rw [List.isEmpty_iff] at he
    rw [he] at hc
    simp at hc
  · have := c.toNat_lt
    rw [decode, Nat.mod_eq_of_lt (by omega), rdInt8 _ (by omega)]

/-- **C78, Huffman.** `encode` with the Huffman coder compresses and gives back every text (shorter than 4 GiB) in which byte 255 does not occur together with
another byte. The empty text and texts with one letter are included. Missing: all other texts, `encode_huffman_255_broken`. -/
theorem encode_huffman_lossless_partial (std : StdLib) (text : List UInt8) (hlen : text.length < 2 ^ 32) :
    ((255 : UInt8) ∈ text → ∀ c ∈ text, c = 255) →
    ∃ z, litHuffCompress std text = .ok z ∧ litHuffDecompress z = .ok text := by
  intro h
  by_cases h255 : (255 : UInt8) ∈ text
  · exact litHuff_of_setup std text (setup_255 std text hlen (h h255))
  · obtain ⟨m, hdr, d, h1, h2, -, h4⟩ := huff_setup std text hlen h255
    exact litHuff_of_setup std text ⟨m, hdr, d, h1, h2, h4⟩

/-- **C78, negation.** -/
theorem encode_huffman_255_broken (std : StdLib) (text : List UInt8) (hlen : text.length < 2 ^ 32) (h255 : (255 : UInt8) ∈ text) (c : UInt8) (hc : c ∈ text) (hne : c ≠ 255)
    (z : List UInt8) : litHuffCompress std text ≠ .ok z :=
  huffman_byte255_broken std text _ hlen h255 c hc hne z

/-! ## SLE -/

theorem rdIntAcc_length (w : Nat) : ∀ (n acc : Nat) (bs : List Bool), (rdIntAcc w n acc bs).2.length ≤ bs.length ∧ (0 < n → bs ≠ [] → (rdIntAcc w n acc bs).2.length < bs.length)
  | 0, _, bs => ⟨Nat.le_refl _, fun h => absurd h (by omega)⟩
  | n + 1, acc, bs => by
    cases bs with
    | nil =>
      refine ⟨?_, fun _ h => absurd rfl h⟩
      simpa [rdIntAcc, rdBit] using (rdIntAcc_length w n _ []).1
    | cons b bs =>
      have := fun a => (rdIntAcc_length w n a bs).1
      simp only [rdIntAcc, rdBit, List.length_cons]
      exact ⟨Nat.le_succ_of_le (this _), fun _ _ => Nat.lt_succ_of_le (this _)⟩

theorem rdInt_lt (w n : Nat) (bs : List Bool) (hn : 0 < n) (h : bs ≠ []) : (rdInt w n bs).2.length < bs.length := (rdIntAcc_length w n 0 bs).2 hn h
theorem rdInt_le (w n : Nat) (bs : List Bool) : (rdInt w n bs).2.length ≤ bs.length := (rdIntAcc_length w n 0 bs).1

theorem decRank_lt (b : Nat) (bs : List Bool) (hb : 0 < b) (h : bs ≠ []) : (SLE.decRank b bs).2.length < bs.length := by
  unfold SLE.decRank
  split
  · exact rdInt_lt _ _ _ hb h
  · split
    · cases bs with
      | nil => exact absurd rfl h
      | cons x bs =>
        cases x with
        | false => exact Nat.lt_succ_of_le (rdInt_le 64 2 bs)
        | true => exact Nat.lt_succ_of_le (rdInt_le 64 b bs)
    · split
      · have := rdInt_lt 8 2 bs (by omega) h
        simp only []
        split <;> exact Nat.lt_of_le_of_lt (rdInt_le _ _ _) this
      · have := rdInt_lt 8 3 bs (by omega) h
        simp only []
        split <;> exact Nat.lt_of_le_of_lt (rdInt_le _ _ _) this

/-- what is left to read -/
def SLE.Dec.left (d : SLE.Dec) : Nat := (d.k + 1) * d.bits.length + d.pend.length

theorem decode_left {d d' : SLE.Dec} {v : Nat} (hsb : 0 < d.sb) (he : d.eof = false) (h : d.decode .literal = .ok (v, d')) :
    d'.left < d.left ∧ d'.sb = d.sb ∧ d'.k = d.k := by
  obtain ⟨k, sb, inv, pend, bits⟩ := d
  cases pend with
  | cons c rest =>
    simp only [SLE.Dec.decode, Except.ok.injEq, Prod.mk.injEq] at h
    obtain ⟨-, rfl⟩ := h
    simp [SLE.Dec.left]
  | nil =>
    have hne : bits ≠ [] := by
      rintro rfl
      simp [SLE.Dec.eof] at he
    have hlt := decRank_lt sb bits hsb hne
    simp only [SLE.Dec.decode] at h
    have hm : (k + 1) * (SLE.decRank sb bits).2.length + (k + 1) ≤ (k + 1) * bits.length := by
      rw [← Nat.mul_succ]
      exact Nat.mul_le_mul_left _ hlt
    cases hi : inv[(SLE.decRank sb bits).1]? with
    | none => rw [hi] at h; simp at h
    | some x =>
      rw [hi] at h
      simp only at h
      split at h
      · cases hd : SLE.decompile x k with
        | nil => rw [hd] at h; simp at h
        | cons c rest =>
          rw [hd] at h
          simp only [Except.ok.injEq, Prod.mk.injEq] at h
          obtain ⟨-, rfl⟩ := h
          have hl : (SLE.decompile x k).length = k := by simp [SLE.decompile]
          rw [hd, List.length_cons] at hl
          refine ⟨?_, rfl, rfl⟩
          simp only [SLE.Dec.left, List.length_nil]
          omega
      · simp only [Except.ok.injEq, Prod.mk.injEq] at h
        obtain ⟨-, rfl⟩ := h
        refine ⟨?_, rfl, rfl⟩
        simp only [SLE.Dec.left, List.length_nil]
        omega

theorem litSleLoop_ok : ∀ (text : List UInt8) (fuel : Nat) (d : SLE.Dec), 0 < d.sb → d.left < fuel →
    (∀ n, ∃ d', d.decodeAll (((text.map fun c => (SLE.SRng.literal, c.toNat)).take n).map (·.1)) = .ok (((text.map fun c => (SLE.SRng.literal, c.toNat)).take n).map (·.2), d') ∧
      (d'.eof = true ↔ text.length ≤ n)) → litSleLoop fuel d = .ok text
  | text, 0, d, _, hf, _ => by omega
  | [], fuel + 1, d, _, _, h => by
    obtain ⟨d', h1, h2⟩ := h 0
    simp only [List.take_zero, List.map_nil, SLE.Dec.decodeAll, Except.ok.injEq, Prod.mk.injEq, true_and] at h1
    subst h1
    rw [litSleLoop, if_pos (h2.2 (Nat.le_refl _))]
  | c :: text, fuel + 1, d, hsb, hf, h => by
    obtain ⟨d', h1, h2⟩ := h 0
    simp only [List.take_zero, List.map_nil, SLE.Dec.decodeAll, Except.ok.injEq, Prod.mk.injEq, true_and] at h1
    subst h1
    have he : d.eof = false := by
      cases hx : d.eof with
      | false => rfl
      | true => exact absurd (h2.1 hx) (by simp)
    obtain ⟨d1, h3, -⟩ := h 1
    cases hd : d.decode .literal with
    | error e => simp [SLE.Dec.decodeAll, hd] at h3
    | ok r =>
      obtain ⟨v, d2⟩ := r
      simp only [List.map_cons, List.take_succ_cons, List.take_zero, List.map_nil, SLE.Dec.decodeAll, hd, Except.ok.injEq, Prod.mk.injEq, List.cons.injEq, and_true] at h3
      obtain ⟨rfl, rfl⟩ := h3
      obtain ⟨g1, g2, g3⟩ := decode_left hsb he hd
      have ih := litSleLoop_ok text fuel d2 (by rw [g2]; exact hsb) (by omega) (by
        intro n
        obtain ⟨d', h4, h5⟩ := h (n + 1)
        simp only [List.map_cons, List.take_succ_cons, SLE.Dec.decodeAll, hd] at h4
        cases hx : d2.decodeAll (((text.map fun c => (SLE.SRng.literal, c.toNat)).take n).map (·.1)) with
        | error e => rw [hx] at h4; simp at h4
        | ok r =>
          obtain ⟨vs, d3⟩ := r
          rw [hx] at h4
          simp only [Except.ok.injEq, Prod.mk.injEq, List.cons.injEq, true_and] at h4
          obtain ⟨rfl, rfl⟩ := h4
          exact ⟨d3, rfl, by rw [h5, List.length_cons]; omega⟩)
      rw [litSleLoop, he]
      simp only [hd, ih]
      simp

theorem sigmaBits_pos (n : Nat) : 0 < SLE.sigmaBits n := by
  unfold SLE.sigmaBits
  exact bitsFor_pos _ (Nat.mod_lt _ (Nat.two_pow_pos 64))

theorem open_fields {k : Nat} {bs : List Bool} {d : SLE.Dec} (h : SLE.Dec.open k bs = .ok d) : d.k = k ∧ 0 < d.sb ∧ d.pend = [] := by
  unfold SLE.Dec.open at h
  cases h1 : rdCInt 7 bs with
  | error e => rw [h1] at h; simp at h
  | ok r =>
    obtain ⟨sigma, bs⟩ := r
    rw [h1] at h
    simp only at h
    cases h2 : SLE.readSyms sigma bs with
    | error e => rw [h2] at h; simp at h
    | ok r =>
      rw [h2] at h
      simp only [Except.ok.injEq] at h
      subst h
      refine ⟨rfl, ?_, rfl⟩
      simp only []
      exact sigmaBits_pos sigma

theorem rdCIntLoop_length (b : Nat) : ∀ (fuel i v : Nat) (bs : List Bool) (r : Nat × List Bool), rdCIntLoop b fuel i v bs = .ok r → r.2.length ≤ bs.length
  | 0, _, _, _, _, h => by simp [rdCIntLoop] at h
  | fuel + 1, i, v, bs, r, h => by
    have hb : (rdBit bs).2.length ≤ bs.length := by cases bs <;> simp [rdBit]
    have hi := rdInt_le 64 b (rdBit bs).2
    simp only [rdCIntLoop] at h
    split at h
    · simp at h
    · split at h
      · exact Nat.le_trans (rdCIntLoop_length b fuel _ _ _ _ h) (Nat.le_trans hi hb)
      · simp only [Except.ok.injEq] at h
        subst h
        exact Nat.le_trans hi hb

theorem rdCInt_length (bs : List Bool) (r : Nat × List Bool) (h : rdCInt 7 bs = .ok r) : r.2.length ≤ bs.length := rdCIntLoop_length _ _ _ _ _ _ h

theorem readSyms_length : ∀ (n : Nat) (bs : List Bool) (r : List Nat × List Bool), SLE.readSyms n bs = .ok r → (∀ bs r, rdCInt 7 bs = .ok r → r.2.length ≤ bs.length) → r.2.length ≤ bs.length
  | 0, bs, r, h, _ => by
    simp only [SLE.readSyms, Except.ok.injEq] at h
    subst h
    exact Nat.le_refl _
  | n + 1, bs, r, h, hc => by
    simp only [SLE.readSyms] at h
    cases h1 : rdCInt 7 bs with
    | error e => rw [h1] at h; simp at h
    | ok r1 =>
      rw [h1] at h
      simp only at h
      cases h2 : SLE.readSyms n r1.2 with
      | error e => rw [h2] at h; simp at h
      | ok r2 =>
        rw [h2] at h
        simp only [Except.ok.injEq] at h
        subst h
        exact Nat.le_trans (readSyms_length n r1.2 r2 h2 hc) (hc _ _ h1)

theorem open_length {k : Nat} {bs : List Bool} {d : SLE.Dec} (h : SLE.Dec.open k bs = .ok d) (hc : ∀ bs r, rdCInt 7 bs = .ok r → r.2.length ≤ bs.length) :
    d.bits.length ≤ bs.length := by
  unfold SLE.Dec.open at h
  cases h1 : rdCInt 7 bs with
  | error e => rw [h1] at h; simp at h
  | ok r =>
    rw [h1] at h
    simp only at h
    cases h2 : SLE.readSyms r.1 r.2 with
    | error e => rw [h2] at h; simp at h
    | ok r2 =>
      rw [h2] at h
      simp only [Except.ok.injEq] at h
      subst h
      exact Nat.le_trans (readSyms_length _ _ _ h2 hc) (hc _ _ h1)

/-- **C78, SLE.** `encode` with the SLE coder and `kmer` from 1 to 7 compresses and gives back every text that is not empty, and with `kmer = 1` the empty one too.
Missing: other values of `kmer`, for which the code is wrong. -/
theorem encode_sle_lossless_partial (k : Nat) (h1 : 1 ≤ k) (h7 : k ≤ 7) (text : List UInt8) (h0 : k = 1 ∨ text ≠ []) :
    ∃ z, litSleCompress k text = .ok z ∧ litSleDecompress k z = .ok text := by
  obtain ⟨bits, e1, d, e2, e3⟩ := SLE.sle_lossless_partial k h1 h7 text.zipIdx (by
    rcases h0 with h | h
    · exact .inl h
    · exact .inr (by simpa [List.zipIdx_eq_nil_iff] using h)) (text.map fun c => (.literal, c.toNat)) (by
    intro t ht
    obtain ⟨c, hc, rfl⟩ := List.mem_map.1 ht
    refine ⟨?_, fun _ => ?_⟩
    · have := c.toNat_lt
      simp only [SLE.SRng.Has]
      omega
    · obtain ⟨i, hi⟩ := List.mem_iff_getElem?.1 hc
      exact ⟨(c, i), by rw [List.mem_zipIdx_iff_getElem?]; exact hi, rfl⟩)
  obtain ⟨g1, g2, g3⟩ := open_fields e2
  refine ⟨BitO.toBytes bits, by simp only [litSleCompress, e1], ?_⟩
  simp only [litSleDecompress, e2]
  refine litSleLoop_ok text _ d g2 ?_ (fun n => ?_)
  · have := open_length e2 rdCInt_length
    simp only [SLE.Dec.left, g1, g3, List.length_nil]
    exact Nat.lt_succ_of_le (Nat.mul_le_mul_left _ this)
  · obtain ⟨d', h1, h2⟩ := e3 n
    exact ⟨d', h1, by simpa using h2⟩

/-- **C78, negation.** With `kmer` above 1 the empty text is not compressed, with `kmer = 0` no other text is. -/
theorem encode_sle_empty_broken (k : Nat) (hk : 1 < k) : litSleCompress k [] = .error .ub := by
  simp only [litSleCompress, List.zipIdx_nil, SLE.sle_no_literals_broken k hk]

theorem encode_sle_k0_broken (text : List UInt8) (h : text ≠ []) : litSleCompress 0 text = .error .ub := by
  have : SLE.run 0 text.zipIdx (text.map fun c => (.literal, c.toNat)) = .error .ub := by
    refine SLE.sle_k0_broken _ _ ?_
    cases text with
    | nil => exact absurd rfl h
    | cons c t => exact ⟨(.literal, c.toNat), by simp, rfl⟩
  simp only [litSleCompress, this]

theorem countLoop_long {k : Nat} (hk : 9 ≤ k) : ∀ (t : List UInt8) (i : Nat) (s : SLE.Count), s.buf.length = i → (i = 0 ∨ s.last + 1 = i) → i < k → k ≤ i + t.length →
    SLE.countLoop k (t.zipIdx i) s = .error .ub
  | [], i, s, _, _, h1, h2 => by simp at h2; omega
  | c :: t, i, s, hb, hl, h1, h2 => by
    have hbuf : (if i ≠ s.last + 1 then [] else s.buf) = s.buf := by
      rcases hl with h | h
      · have : s.buf = [] := List.length_eq_zero_iff.1 (by omega)
        rw [this]
        simp
      · rw [if_neg (by omega)]
    rw [List.zipIdx_cons, SLE.countLoop]
    unfold SLE.countStep
    rw [if_pos (by omega)]
    simp only [hbuf, SLE.roll]
    rw [if_neg (by omega)]
    simp only
    by_cases hx : (s.buf ++ [c]).length = k
    · rw [if_pos hx, SLE.compile, if_pos (by omega)]
    · rw [if_neg hx]
      rw [List.length_append, List.length_singleton] at hx
      rw [List.length_cons] at h2
      exact countLoop_long hk t (i + 1) _ (by simp [hb]) (.inr rfl) (by omega) (by omega)

/-- **C78, negation.** With `kmer` above 8 no text of at least that length is compressed. -/
theorem encode_sle_k9_broken (k : Nat) (hk : 9 ≤ k) (text : List UInt8) (h : k ≤ text.length) : litSleCompress k text = .error .ub := by
  have := countLoop_long hk text 0 ⟨[], 0, [], []⟩ rfl (.inl rfl) (by omega) (by omega)
  simp only [litSleCompress, SLE.run, SLE.ranking, this]

/-- **C78, negation.** With `kmer = 8` eight times the same letter is not given back. -/
theorem encode_sle_k8_lossy : ∃ z, litSleCompress 8 (List.replicate 8 97) = .ok z ∧ litSleDecompress 8 z = .ok (255 :: List.replicate 7 97) := by
  have h1 : SLE.ranking 8 (List.replicate 8 97).zipIdx = .ok [97, 0xFF61616161616161] := by decide +kernel
  have h2 : SLE.encodeAll 8 (SLE.sigmaBits 2) [97, 0xFF61616161616161] [] ((List.replicate 8 97).map fun c : UInt8 => (.literal, c.toNat)) = .ok [true] := by decide +kernel
  have hr : SLE.run 8 (List.replicate 8 97).zipIdx ((List.replicate 8 97).map fun c : UInt8 => (.literal, c.toNat)) = .ok (SLE.header [97, 0xFF61616161616161] ++ [true]) := by
    rw [SLE.run, h1]
    simp only
    rw [show ([97, 0xFF61616161616161] : List Nat).length = 2 from rfl, h2]
  have ho := SLE.open_header 8 [97, 0xFF61616161616161] (by simp) (by simp) [true]
  refine ⟨BitO.toBytes (SLE.header [97, 0xFF61616161616161] ++ [true]), by simp only [litSleCompress, hr], ?_⟩
  rw [litSleDecompress, bitsOf_toBytes, ho]
  obtain ⟨f, hf⟩ : ∃ f, (8 + 1) * (SLE.header [97, 0xFF61616161616161] ++ [true]).length + 1 = f + 9 :=
    ⟨(8 + 1) * (SLE.header [97, 0xFF61616161616161]).length + 1, by rw [List.length_append, List.length_singleton]; omega⟩
  simp only [hf]
  rfl

/-- texts for the theorems above: two letters and byte 255 only, and byte 255 with another letter -/
example : ((255 : UInt8) ∈ ([97, 98] : List UInt8) → ∀ c ∈ ([97, 98] : List UInt8), c = 255) ∧ ((255 : UInt8) ∈ ([255, 255] : List UInt8) → ∀ c ∈ ([255, 255] : List UInt8), c = 255) ∧
    (255 : UInt8) ∈ ([97, 255] : List UInt8) ∧ (97 : UInt8) ∈ ([97, 255] : List UInt8) := by decide

end Tdc
