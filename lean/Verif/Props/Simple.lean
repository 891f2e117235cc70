import Verif.Model.Simple
import Verif.Props.Coders

/-!
# Properties C07 – C09: noop, LiteralEncoder, run-length encoding, move-to-front
-/

namespace Tdc

/-! ## C07 -/

/-- **C07.** noop is lossless, in every combination of modes. -/
theorem noop_lossless (m d m' d' : Bool) (text : List UInt8) :
    noopRun m' d' (noopRun m d text) = text := rfl

theorem literalLoop_spec {c : UCoder} (hc : c.Lawful) (text : List UInt8) (fuel : Nat)
    (hf : text.length < fuel) :
    literalLoop c fuel (c.encAll (literalTokens text)) = .ok text := by
  induction text generalizing fuel with
  | nil => cases fuel with
    | zero => simp at hf
    | succ n => simp [literalLoop, literalTokens, UCoder.encAll]
  | cons x xs ih =>
    obtain ⟨fuel, rfl⟩ : ∃ f, fuel = f + 1 := ⟨fuel - 1, by simp at hf; omega⟩
    have hx : Rng.literal.Has x.toNat := ⟨Nat.zero_le _, by have := x.toNat_lt; simp [Rng.max]; omega, by simp [Rng.max]⟩
    have e : c.encAll (literalTokens (x :: xs)) = c.enc .literal x.toNat ++ c.encAll (literalTokens xs) := by
      simp [literalTokens, UCoder.encAll]
    have hne : (c.encAll (literalTokens (x :: xs))).isEmpty = false := by
      rw [e]; simp [hc.enc_ne_nil _ _ hx]
    simp only [literalLoop, hne, Bool.false_eq_true, if_false]
    rw [e, hc.dec_enc _ _ _ hx]
    simp only []
    rw [ih fuel (by simp at hf; omega)]
    simp

theorem encAll_length {c : UCoder} (hc : c.Lawful) (ts : List Token) (h : ∀ t ∈ ts, t.1.Has t.2) :
    ts.length ≤ (c.encAll ts).length := by
  induction ts with
  | nil => simp
  | cons t ts ih =>
    have h1 := List.length_pos_iff.mpr (hc.enc_ne_nil _ _ (h t (by simp)))
    have h2 := ih (fun t ht => h t (by simp [ht]))
    simp only [UCoder.encAll, List.flatMap_cons, List.length_append, List.length_cons] at *
    omega

/-- **C07.** LiteralEncoder is lossless with every universal coder. -/
theorem literal_lossless (n : CoderName) (text : List UInt8) :
    literalDecompress n.coder (literalCompress n.coder text) = .ok text := by
  unfold literalDecompress literalCompress
  rw [bitsOf_toBytes]
  apply literalLoop_spec n.lawful
  have := encAll_length n.lawful (literalTokens text) (by
    intro t ht
    simp only [literalTokens, List.mem_map] at ht
    obtain ⟨x, _, rfl⟩ := ht
    exact ⟨Nat.zero_le _, by have := x.toNat_lt; simp [Rng.max]; omega, by simp [Rng.max]⟩)
  simp only [literalTokens, List.length_map] at this
  simp only [literalTokens]; omega

example : literalCompress asciiCoder [72, 105] = [72, 105, 0] := by decide

/-! ## C08 -/

theorem peekRun_spec (c : UInt8) (rest : List UInt8) (h : ¬ (c = 255 ∧ rest = [])) :
    ∃ run r, peekRun c rest = .ok (run, r) ∧ rest = List.replicate run c ++ r := by
  by_cases hc : c.toNat < 128
  · -- ordinary characters: the loop counts the run
    clear h
    have hs : schar c = c.toNat := by simp [schar, hc]
    induction rest with
    | nil =>
      refine ⟨0, [], ?_, rfl⟩
      simp only [peekRun, hs]; rw [if_neg (by omega)]
    | cons b rest ih =>
      obtain ⟨run, r, e1, e2⟩ := ih
      by_cases hb : b = c
      · subst hb
        refine ⟨run + 1, r, ?_, by rw [List.replicate_succ, List.cons_append, ← e2]⟩
        simp only [peekRun, hs, if_true, e1]
      · refine ⟨0, b :: rest, ?_, rfl⟩
        have : ¬ ((b.toNat : Int) = c.toNat) := fun e => hb (UInt8.toNat_inj.mp (by omega))
        simp only [peekRun, hs, this, if_false]
  · -- bytes ≥ 0x80: `peek()` is never equal to the negative `char`
    have hs : schar c = c.toNat - 256 := by simp [schar, hc]
    cases rest with
    | nil =>
      have : c ≠ 255 := fun e => h ⟨e, rfl⟩
      refine ⟨0, [], ?_, rfl⟩
      simp only [peekRun, hs]
      rw [if_neg]
      intro e
      exact this (UInt8.toNat_inj.mp (by have : (255 : UInt8).toNat = 255 := rfl; omega))
    | cons b rest =>
      refine ⟨0, b :: rest, ?_, rfl⟩
      simp only [peekRun, hs]
      rw [if_neg]
      have := c.toNat_lt
      omega

theorem rle_unoffset (run offset : Nat) (h : run < 2 ^ 64) :
    ((run + offset) % 2 ^ 64 + 2 ^ 64 - offset % 2 ^ 64) % 2 ^ 64 = run := by omega

theorem rep_cons (n : Nat) (a : UInt8) (l : List UInt8) :
    List.replicate n a ++ a :: l = a :: (List.replicate n a ++ l) := by
  induction n with
  | zero => rfl
  | succ n ih => simp [List.replicate_succ, ih]

/-- `xs` ends with two bytes `FF FF`. -/
def EndsFFFF (xs : List UInt8) : Prop := ∃ ys, xs = ys ++ [255, 255]

theorem rle_loop_spec (offset : Nat) (n : Nat) (prev : UInt8) (rest : List UInt8) (hn : rest.length ≤ n)
    (hlen : rest.length < 2 ^ 64) (h : ¬ EndsFFFF (prev :: rest)) :
    ∃ out, rleEncLoop offset n prev rest = .ok out ∧
      ∀ m, out.length ≤ m → rleDecLoop offset m prev out = .ok rest := by
  induction n generalizing prev rest with
  | zero =>
    have : rest = [] := List.length_eq_zero_iff.mp (by omega)
    subst this
    exact ⟨[], rfl, fun m _ => by simp [rleDecLoop]⟩
  | succ n ih =>
    match rest with
    | [] => exact ⟨[], rfl, fun m _ => by simp [rleDecLoop]⟩
    | c :: rest =>
      by_cases hpc : prev = c
      · subst hpc
        obtain ⟨run, r, e1, e2⟩ := peekRun_spec prev rest (by
          rintro ⟨rfl, rfl⟩; exact h ⟨[], rfl⟩)
        have hrl : rest.length = run + r.length := by rw [e2]; simp
        obtain ⟨out, h1, h2⟩ := ih prev r (by simp at hn; omega) (by simp at hlen; omega) (by
          rintro ⟨ys, hys⟩
          apply h
          refine ⟨(prev :: List.replicate run prev) ++ ys, ?_⟩
          rw [List.append_assoc, ← hys, e2, List.cons_append, rep_cons])
        refine ⟨prev :: (writeVByte ((run + offset) % 2 ^ 64) ++ out), ?_, ?_⟩
        · simp only [rleEncLoop, if_true, e1, h1]
        · intro m hm
          obtain ⟨m, rfl⟩ : ∃ k, m = k + 1 := ⟨m - 1, by simp at hm; omega⟩
          simp only [rleDecLoop, if_true, readVByte]
          rw [readVByteAux_spec _ 0 0 _ (by simp; omega) (by omega) (by simp)]
          simp only [Nat.mul_zero, Nat.pow_zero, Nat.mul_one, Nat.zero_add]
          rw [h2 m (by simp at hm; omega), rle_unoffset _ _ (by simp at hlen; omega), e2]
          simp only [rep_cons]
      · obtain ⟨out, h1, h2⟩ := ih c rest (by simp at hn; omega) (by simp at hlen; omega) (by
          rintro ⟨ys, hys⟩; exact h ⟨prev :: ys, by rw [hys]; rfl⟩)
        refine ⟨c :: out, by simp only [rleEncLoop, hpc, if_false, h1], ?_⟩
        intro m hm
        obtain ⟨m, rfl⟩ : ∃ k, m = k + 1 := ⟨m - 1, by simp at hm; omega⟩
        simp only [rleDecLoop, hpc, if_false]
        rw [h2 m (by simp at hm; omega)]

/-- **C08 (partial).** rle is lossless for every offset and every input that does not end in `FF FF`
(inputs of fewer than 2^64 bytes). Missing: the excluded inputs, for which the claim is false, see
`rle_diverges`. -/
theorem rle_lossless_partial (offset : Nat) (text : List UInt8) (hlen : text.length < 2 ^ 64)
    (h : ¬ EndsFFFF text) :
    ∃ out, rleEncode offset text = .ok out ∧ rleDecode offset out = .ok text := by
  match text with
  | [] => exact ⟨[], rfl, rfl⟩
  | prev :: rest =>
    obtain ⟨out, h1, h2⟩ := rle_loop_spec offset rest.length prev rest (Nat.le_refl _) (by simp at hlen; omega) h
    exact ⟨prev :: out, by simp [rleEncode, h1], by simp [rleDecode, h2 out.length (Nat.le_refl _)]⟩

/-- Non-trivial instances: a run of `a`s, and a text with high bytes. -/
example : ¬ EndsFFFF [97, 97, 97, 97, 255, 255, 98] := by
  rintro ⟨ys, h⟩
  have := congrArg (fun l => l.reverse.head?) h
  simp at this
example : rleEncode 0 [97, 97, 97, 97, 98] = .ok [97, 97, 2, 98] := by
  simp [rleEncode, rleEncLoop, peekRun, schar, writeVByte]

/-- **C08, the full claim is false of the code**: on every input ending in `FF FF` the encoder loops forever
(`peek()` returns `EOF = -1`, which equals the signed `char` `0xFF`). -/
theorem rle_diverges (offset : Nat) (ys : List UInt8) : rleEncode offset (ys ++ [255, 255]) = .error .loop := by
  have hschar : schar 255 = -1 := by decide
  have key : ∀ n (prev : UInt8) (rest : List UInt8), rest.length ≤ n → EndsFFFF (prev :: rest) →
      rleEncLoop offset n prev rest = .error .loop := by
    intro n
    induction n with
    | zero =>
      intro prev rest hn ⟨zs, hz⟩
      have := congrArg List.length hz
      simp at this; omega
    | succ n ih =>
      intro prev rest hn ⟨zs, hz⟩
      match rest with
      | [] => have := congrArg List.length hz; simp at this
      | c :: rest =>
        by_cases hpc : prev = c
        · subst hpc
          by_cases hlast : prev = 255 ∧ rest = []
          · obtain ⟨rfl, rfl⟩ := hlast
            simp [rleEncLoop, peekRun, hschar]
          · obtain ⟨run, r, e1, e2⟩ := peekRun_spec prev rest hlast
            have hrl : rest.length = run + r.length := by rw [e2]; simp
            simp only [rleEncLoop, if_true, e1]
            rw [ih prev r (by simp at hn; omega)]
            -- the remaining input still ends in FF FF
            have hz' : List.replicate (run + 1) prev ++ (prev :: r) = zs ++ [255, 255] := by
              rw [← hz, e2, rep_cons, List.replicate_succ, List.cons_append]
            match r with
            | [] =>
              -- then the whole rest was a run of `prev`, which must be FF; but FF is never counted
              exfalso
              have hp : prev = 255 := by
                have := congrArg (fun l => l.getLast?) hz'
                simpa using this
              subst hp
              cases run with
              | zero => exact hlast ⟨rfl, by rw [e2]; rfl⟩
              | succ k =>
                rw [e2] at e1
                simp only [List.replicate_succ, List.cons_append, peekRun, hschar] at e1
                simp at e1
            | x :: r =>
              refine ⟨zs.drop (run + 1), ?_⟩
              have hl := congrArg List.length hz'
              simp at hl
              have := congrArg (List.drop (run + 1)) hz'
              rw [List.drop_left' (by simp), List.drop_append_of_le_length (by omega)] at this
              exact this
        · simp only [rleEncLoop, hpc, if_false]
          rw [ih c rest (by simp at hn; omega)]
          match zs, hz with
          | [], hz => simp at hz; exact absurd (hz.1.trans hz.2.1.symm) hpc
          | z :: zs, hz => exact ⟨zs, by simp at hz; exact hz.2⟩
  match ys with
  | [] => simp [rleEncode, key 1 255 [255] (by simp) ⟨[], rfl⟩]
  | y :: ys =>
    simp only [List.cons_append, rleEncode]
    rw [key _ y (ys ++ [255, 255]) (Nat.le_refl _) ⟨y :: ys, rfl⟩]

/-! ## C09 -/

theorem mtfShift_spec (i : Nat) (table : List UInt8) (v : UInt8) (hi : i < table.length) :
    (mtfShift i table).set 0 v = v :: table.eraseIdx i := by
  have key : ∀ i (table : List UInt8), i < table.length →
      (mtfShift i table).tail = table.eraseIdx i ∧ (mtfShift i table).length = table.length := by
    intro i
    induction i with
    | zero => intro table h; cases table <;> simp_all [mtfShift]
    | succ j ih =>
      intro table h
      have hj : j < table.length := by omega
      obtain ⟨h1, h2⟩ := ih (table.set (j + 1) (table.getD j 0)) (by simp; omega)
      simp only [mtfShift, h1, h2, List.length_set, and_true]
      apply List.ext_getElem?
      intro k
      simp only [List.getElem?_eraseIdx, List.getElem?_set]
      split
      · rename_i hk; rw [if_neg (by omega), if_pos (by omega)]
      · rename_i hk
        by_cases hkj : k = j
        · subst hkj
          rw [if_pos rfl, if_pos (by omega), List.getD_eq_getElem?_getD,
            List.getElem?_eq_getElem (by omega)]
          simp
        · rw [if_neg (by omega), if_neg (by omega)]
  obtain ⟨h1, h2⟩ := key i table hi
  cases hm : mtfShift i table with
  | nil => rw [hm] at h2; simp at h2; omega
  | cons a l => rw [hm] at h1; simp at h1; simp [h1]

/-- The table is a permutation of the 256 byte values. -/
def MtfTable (table : List UInt8) : Prop := table.Perm mtfInit

theorem mtfInit_mem (v : UInt8) : v ∈ mtfInit := by
  simp only [mtfInit, List.mem_map, List.mem_range]
  exact ⟨v.toNat, v.toNat_lt, by simp⟩

theorem mtf_perm {table : List UInt8} (h : MtfTable table) (i : Nat) (hi : i < table.length) :
    MtfTable (table[i] :: table.eraseIdx i) :=
  List.Perm.trans (by
    rw [List.eraseIdx_eq_take_drop_succ]
    refine List.perm_middle.symm.trans (List.Perm.of_eq ?_)
    rw [← List.drop_eq_getElem_cons hi, List.take_append_drop]) h

theorem mtfFind_spec (v : UInt8) (table : List UInt8) (n i : Nat) (hl : table.length = 256)
    (hn : i + n = 256) (hmem : ∃ k, i ≤ k ∧ ∃ hk : k < table.length, table[k] = v) :
    ∃ k, ∃ hk : k < table.length, table[k] = v ∧ mtfFind v table i n = (UInt8.ofNat k, v :: table.eraseIdx k) := by
  induction n generalizing i with
  | zero => obtain ⟨k, h1, h2, _⟩ := hmem; omega
  | succ n ih =>
    have hi : i < table.length := by omega
    by_cases he : table[i] = v
    · refine ⟨i, hi, he, ?_⟩
      simp only [mtfFind]
      rw [if_pos (by simp [List.getD_eq_getElem?_getD, hi, he]), mtfShift_spec i table v hi]
    · obtain ⟨k, hk, h1, h2⟩ := ih (i + 1) (by omega) (by
        obtain ⟨k, h1, h2, h3⟩ := hmem
        refine ⟨k, ?_, h2, h3⟩
        rcases Nat.eq_or_lt_of_le h1 with rfl | h
        · exact absurd h3 he
        · exact h)
      refine ⟨k, hk, h1, ?_⟩
      simp only [mtfFind]
      rw [if_neg (by simpa [List.getD_eq_getElem?_getD, hi] using he), h2]

/-- One step: the encoder's output, decoded with the same table, gives the character and the same new table,
which is again a permutation. -/
theorem mtf_step (v : UInt8) (table : List UInt8) (h : MtfTable table) :
    mtfDecodeChar (mtfEncodeChar v table).1 table = (v, (mtfEncodeChar v table).2) ∧
    MtfTable (mtfEncodeChar v table).2 ∧ (mtfEncodeChar v table).2.head? = some v := by
  have hl : table.length = 256 := by rw [h.length_eq]; simp [mtfInit]
  have hv : v ∈ table := h.mem_iff.mpr (mtfInit_mem v)
  obtain ⟨k, hk, hkv⟩ := List.getElem_of_mem hv
  obtain ⟨k, hk, h1, h2⟩ := mtfFind_spec v table 256 0 hl rfl ⟨k, Nat.zero_le _, hk, hkv⟩
  have hto : (UInt8.ofNat k).toNat = k := by rw [UInt8.toNat_ofNat']; omega
  have hg : table.getD k 0 = v := by simp [List.getD_eq_getElem?_getD, hk, h1]
  refine ⟨?_, ?_, ?_⟩
  · simp only [mtfEncodeChar, h2, mtfDecodeChar, hto, hg]
    rw [mtfShift_spec k table v hk]
  · simp only [mtfEncodeChar, h2]
    have := mtf_perm h k hk
    rwa [h1] at this
  · simp [mtfEncodeChar, h2]

/-- **C09.** Decoding inverts encoding on every text, and after any text the recency table is a permutation of all
256 byte values on both sides. -/
theorem mtf_lossless (text : List UInt8) :
    mtfDecode (mtfEncode text) = text ∧ MtfTable (mtfLoop mtfEncodeChar mtfInit text).2 := by
  unfold mtfDecode mtfEncode
  suffices ∀ table, MtfTable table →
      (mtfLoop mtfDecodeChar table (mtfLoop mtfEncodeChar table text).1).1 = text ∧
      MtfTable (mtfLoop mtfEncodeChar table text).2 from this _ (List.Perm.refl _)
  induction text with
  | nil => intro table h; exact ⟨rfl, h⟩
  | cons c cs ih =>
    intro table h
    obtain ⟨h1, h2, _⟩ := mtf_step c table h
    have := ih _ h2
    simp only [mtfLoop, h1]
    exact ⟨by rw [this.1], this.2⟩

/-- **C09.** The code of a character is its recency rank: a character that was the previous one is coded 0. -/
theorem mtf_repeat_zero (text : List UInt8) (c : UInt8) :
    (mtfEncodeChar c (mtfLoop mtfEncodeChar mtfInit (text ++ [c])).2).1 = 0 := by
  have hinv : ∀ text table, MtfTable table → MtfTable (mtfLoop mtfEncodeChar table text).2 := by
    intro text
    induction text with
    | nil => intro t h; exact h
    | cons c cs ih => intro t h; simpa [mtfLoop] using ih _ (mtf_step c t h).2.1
  have happ : ∀ text table, (mtfLoop mtfEncodeChar table (text ++ [c])).2
      = (mtfEncodeChar c (mtfLoop mtfEncodeChar table text).2).2 := by
    intro text
    induction text with
    | nil => intro t; simp [mtfLoop]
    | cons x xs ih => intro t; simp [mtfLoop, ih]
  rw [happ]
  obtain ⟨_, _, h3⟩ := mtf_step c _ (hinv text mtfInit (List.Perm.refl _))
  generalize (mtfEncodeChar c (mtfLoop mtfEncodeChar mtfInit text).2).2 = t at h3
  cases t with
  | nil => simp at h3
  | cons a t => simp at h3; subst h3; simp [mtfEncodeChar, mtfFind]

example : mtfEncode [98, 98, 97, 98] = [98, 0, 98, 1] := by decide +kernel

end Tdc
