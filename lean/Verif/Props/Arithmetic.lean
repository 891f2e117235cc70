import Verif.Lemmas.Arithmetic

/-!
# Property C42: the arithmetic coder

`compress` and `decompress` are the compressor `encode` (LiteralEncoder) with the coder `arithmetic`. The claim is that decompression
returns the text.
-/

namespace Tdc
namespace Arith

/-- The texts for which the coder works: no byte 255, some byte other than 0, and if byte 0 occurs then it is not rarer than every
other byte. Missing for the full claim: all other texts, which are lost (see below). -/
theorem arithmetic_lossless_partial (text : List UInt8) (h255 : (255 : UInt8) ∉ text) (hlen : text.length < 2 ^ 31) (hne : ∃ c ∈ text, c ≠ 0)
    (h0 : (0 : UInt8) ∈ text → ∃ c ∈ text, c ≠ 0 ∧ text.count c ≤ text.count 0) :
    ∃ bytes, compress text = .ok bytes ∧ decompress bytes = .ok text := roundtrip ⟨h255, hlen, hne, h0⟩

/-- The hypotheses are met, also by a text with byte 0. -/
example : ∃ bytes, compress [97, 98, 97, 0] = .ok bytes ∧ decompress bytes = .ok [97, 98, 97, 0] :=
  arithmetic_lossless_partial _ (by decide) (by decide) ⟨97, by decide, by decide⟩ fun _ => ⟨98, by decide, by decide, by decide⟩

/-- More than one code is written: every text over `a`, `b` of any length below 2^31. -/
example (n : Nat) (hn : n < 2 ^ 30) : ∃ bytes, compress (List.replicate n 97 ++ List.replicate (n + 1) 98) = .ok bytes ∧
    decompress bytes = .ok (List.replicate n 97 ++ List.replicate (n + 1) 98) := by
  have hm : ∀ c : UInt8, c ∈ List.replicate n (97 : UInt8) ++ List.replicate (n + 1) 98 → c = 97 ∨ c = 98 := by
    intro c hc
    rcases List.mem_append.1 hc with h | h
    · exact Or.inl (List.eq_of_mem_replicate h)
    · exact Or.inr (List.eq_of_mem_replicate h)
  apply arithmetic_lossless_partial
  · intro h
    rcases hm _ h with h | h <;> exact absurd h (by decide)
  · simp only [List.length_append, List.length_replicate]
    omega
  · exact ⟨98, List.mem_append_right _ (by simp), by decide⟩
  · intro h
    rcases hm _ h with h | h <;> exact absurd h (by decide)

theorem foldl_zero (c : Nat → Nat) (l : List Nat) (m : Nat) (h : ∀ i ∈ l, c i = 0) :
    l.foldl (fun m i => if c i ≠ 0 then min m (c i) else m) m = m := by
  induction l with
  | nil => rfl
  | cons a l ih =>
    rw [List.foldl_cons, if_neg (by simpa using h a (List.mem_cons_self ..))]
    exact ih fun i hi => h i (List.mem_cons_of_mem _ hi)

/-- A text of null bytes only cannot be compressed: a division by zero. -/
theorem arithmetic_zeros_fail (n : Nat) (hn : n + 1 < 2 ^ 32 - 1) : compress (List.replicate (n + 1) 0) = .error .ub := by
  have hmin : minCount (cnt (List.replicate (n + 1) 0)) = 2 ^ 32 - 1 := by
    apply foldl_zero
    intro i hi
    by_contra h
    obtain ⟨c, hc, e⟩ := (cnt_ne_zero _ i).1 h
    rw [List.eq_of_mem_replicate hc] at e
    simp only [List.mem_range'_1] at hi
    have : (0 : UInt8).toNat = 0 := rfl
    omega
  have hL : (Enc.init (List.replicate (n + 1) 0)).C 255 = 0 := by
    show cum _ 255 / minCount _ = 0
    rw [hmin, cum_sum]
    apply Nat.div_eq_of_lt
    exact Nat.lt_of_le_of_lt List.countP_le_length (by simpa using hn)
  have hC : ((Enc.init (List.replicate (n + 1) 0)).refresh.2.bump).C = (Enc.init (List.replicate (n + 1) 0)).C := by
    unfold Enc.refresh Enc.bump
    split <;> rfl
  have hnar : ∀ v, (Enc.init (List.replicate (n + 1) 0)).refresh.2.bump.narrow v = .error .ub := by
    intro v
    unfold Enc.narrow
    rw [hC, if_pos hL]
  rw [compress, encodeFile, literalTokens, List.replicate_succ, List.map_cons, ← List.replicate_succ, Enc.run, Enc.step, if_pos rfl, Enc.literal, hnar]
  rfl

theorem run_nothing : ∀ (n : Nat) (e : Enc), e.C 255 ≠ 0 → e.minRange = 0 → e.count = 0 → e.counter + n < 2 ^ 32 →
    e.run (List.replicate n (Rng.literal, 255)) = .ok []
  | 0, _, _, _, _, _ => rfl
  | n + 1, e, h1, h2, h3, h4 => by
    have hr : e.refresh = ([], e) := by
      unfold Enc.refresh
      rw [if_neg (by omega)]
    have hk : u32 (e.counter + 1) = e.counter + 1 := by
      rw [u32]
      exact Nat.mod_eq_of_lt (by omega)
    have hn : ∃ e', e.refresh.2.bump.narrow 255 = .ok e' ∧ e'.C = e.C ∧ e'.minRange = e.minRange ∧ e'.count = e.count ∧ e'.counter = e.counter + 1 := by
      rw [hr, Enc.narrow]
      rw [if_neg (show ¬ (([], e) : List Nat × Enc).2.bump.C 255 = 0 from h1)]
      exact ⟨_, rfl, rfl, rfl, rfl, hk⟩
    obtain ⟨e', g0, g1, g2, g3, g4⟩ := hn
    have hf : e'.finish = [] := by
      unfold Enc.finish
      rw [if_neg (by omega)]
    have hl := literal_of g0
    rw [hf, hr] at hl
    rw [List.replicate_succ, run_cons hl (run_nothing n e' (by rw [g1]; exact h1) (by omega) (by omega) (by omega))]
    rfl

/-- A text of bytes 255 only is lost: nothing at all is decompressed. -/
theorem arithmetic_255_lost (n : Nat) (hn : n + 1 < 2 ^ 31) :
    ∃ bytes, compress (List.replicate (n + 1) 255) = .ok bytes ∧ decompress bytes = .ok [] := by
  have hcnt : ∀ i, cnt (List.replicate (n + 1) 255) i = if i = 255 then n + 1 else 0 := by
    intro i
    unfold cnt
    by_cases h : i = 255
    · rw [if_pos h, List.countP_replicate, if_pos (by simp [h])]
    · rw [if_neg h, List.countP_replicate, if_neg (by simpa using fun e => h e.symm)]
  have hcum : cum (cnt (List.replicate (n + 1) 255)) 254 = 0 := by
    rw [cum_sum, List.countP_replicate, if_neg (by decide)]
  have hcum5 : cum (cnt (List.replicate (n + 1) 255)) 255 = n + 1 := by
    rw [cum_sum, List.countP_replicate, if_pos (by decide)]
  obtain ⟨m1, m2, m3⟩ := foldl_min (cnt (List.replicate (n + 1) 255)) (List.range' 1 255) (2 ^ 32 - 1)
  have hmin : minCount (cnt (List.replicate (n + 1) 255)) = n + 1 := by
    unfold minCount
    rcases m3 with h | ⟨i, _, hi, e⟩
    · have := m2 255 (by simp [List.mem_range'_1]) (by rw [hcnt]; simp)
      rw [hcnt, if_pos rfl] at this
      omega
    · rw [e, hcnt]
      rw [hcnt] at hi
      by_cases h : i = 255
      · rw [if_pos h]
      · rw [if_neg h] at hi
        exact absurd rfl hi
  have h254 : norm (cnt (List.replicate (n + 1) 255)) 254 = 0 := by
    unfold norm
    rw [hcum]
    exact Nat.zero_div _
  have h255 : norm (cnt (List.replicate (n + 1) 255)) 255 = 1 := by
    unfold norm
    rw [hcum5, hmin]
    exact Nat.div_self (by omega)
  have B : Bounds (norm (cnt (List.replicate (n + 1) 255))) 1 := by
    have mono : ∀ i j, i ≤ j → norm (cnt (List.replicate (n + 1) 255)) i ≤ norm (cnt (List.replicate (n + 1) 255)) j :=
      fun i j h => Nat.div_le_div_right (cum_mono _ _ _ h)
    exact ⟨mono, fun i h => Nat.le_trans (mono i 255 h) (Nat.le_of_eq h255), h255, Nat.one_pos, Nat.one_lt_two_pow (by decide)⟩
  have hrun := run_nothing (n + 1) (Enc.init (List.replicate (n + 1) 255)) (by show norm _ 255 ≠ 0; rw [h255]; decide) h254 hcum
    (by show 0 + (n + 1) < _; omega)
  have htok : literalTokens (List.replicate (n + 1) 255) = List.replicate (n + 1) (Rng.literal, 255) := by
    unfold literalTokens
    rw [List.map_replicate]
    rfl
  have hbook : (book (norm (cnt (List.replicate (n + 1) 255))) 0 256).length = codebookSize (cnt (List.replicate (n + 1) 255)) ∧
      codebookSize (cnt (List.replicate (n + 1) 255)) < 256 := by
    have h : ∀ i, i < 256 → (before (norm (cnt (List.replicate (n + 1) 255))) i ≠ norm (cnt (List.replicate (n + 1) 255)) i ↔
        cnt (List.replicate (n + 1) 255) i ≠ 0) := by
      intro i hi
      by_cases h : i = 255
      · subst h
        have : before (norm (cnt (List.replicate (n + 1) 255))) 255 = norm (cnt (List.replicate (n + 1) 255)) 254 := rfl
        rw [this, h254, h255, hcnt]
        simp
      · have hz : cnt (List.replicate (n + 1) 255) i = 0 := by rw [hcnt, if_neg h]
        exact ⟨fun hb => absurd (norm_eq i hz) hb, fun hb => absurd hz hb⟩
    have hl := book_length h 256 0 (Nat.le_refl _)
    have hlt : ((List.range 256).countP fun i => decide (cnt (List.replicate (n + 1) 255) i ≠ 0)) = 1 := by
      have : ((List.range 256).countP fun i => decide (cnt (List.replicate (n + 1) 255) i ≠ 0)) = (List.range 256).countP fun i => decide (i = 255) := by
        apply List.countP_congr
        intro i _
        rw [hcnt]
        by_cases h : i = 255 <;> simp [h]
      rw [this]
      decide +kernel
    unfold codebookSize
    rw [hl, ← List.range_eq_range', hlt]
    exact ⟨rfl, by decide⟩
  refine ⟨_, by rw [compress, encodeFile, htok, hrun, bind_ok], ?_⟩
  rw [decompress, bitsOf_toBytes]
  have hop := open_eq B (cum (cnt (List.replicate (n + 1) 255)) 254) (codebookSize (cnt (List.replicate (n + 1) 255))) []
    (by rw [hcum]; decide) hbook.1.symm hbook.2
  have hop' : Dec.open (header (Enc.init (List.replicate (n + 1) 255)).count (codebookSize (cnt (List.replicate (n + 1) 255)))
    (Enc.init (List.replicate (n + 1) 255)).C ++ []) = _ := hop
  rw [hop', bind_ok]
  rfl

/-- The compressed form of a text, decompressed again. -/
def both (text : List UInt8) : Res (List UInt8) := (compress text).bind decompress

/-- Byte 255 beside others: the text loses its end. -/
theorem arithmetic_255_lossy : both [97, 255] = .ok [97] := by decide +kernel

/-- Byte 0 rarer than every other byte: its interval is empty and the decompressor gets lost. -/
theorem arithmetic_rare_zero_fails : both [97, 97, 0] ≠ .ok [97, 97, 0] := by decide +kernel

/-- The empty text: the decompressor reads the last entry of an empty code book. -/
theorem arithmetic_empty_fails : both [] = .error .ub := by decide +kernel

end Arith
end Tdc
