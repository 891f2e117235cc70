import Verif.Lemmas.LZ78U

/-!
# Property C45: LZ78UCompressor

`compress c1 c2 fuel thr T`: references coded with `c1`, characters with `c2`, option `threshold = thr`; `fuel` bounds the rounds of each
loop of the compressor (`T.length + 1` suffice).
-/

namespace Tdc
namespace U78

open Arith (bind_ok)

/-- `compress` never fails for a threshold of at least 1. -/
theorem factors_total {T : List UInt8} (hT : Sentinel T) (hn : T.length < 2 ^ 32) {thr : Nat} (hthr : 1 ≤ thr) :
    ∃ fs, factors (T.length + 1) thr T = .ok fs ∧ (∀ t ∈ fs.flatten, InRange t) ∧ fs.length ≤ T.length := by
  obtain ⟨fs, h1, h2, h3⟩ := mainLoop_total (txt_of hT) (w := width T) hthr hn (Nat.lt_succ_self _) (T.length + 1) 0 (fun _ => 0) 0 (by omega)
    (fun _ => Nat.le_refl _) (Nat.le_refl _) (Nat.zero_le _)
  exact ⟨fs, h1, h2, by omega⟩

theorem decBits_eq {T : List UInt8} (hT : Sentinel T) (hn : T.length < 2 ^ 32) {thr : Nat} (hthr : 1 ≤ thr) {fs : List (List Tok)}
    (hfs : factors (T.length + 1) thr T = .ok fs) (hw : fs.length < 2 ^ width T) {c1 c2 : UCoder} (hg : ∀ t ∈ fs.flatten, Good c1 c2 t) :
    decBits c1 c2 (encs c1 c2 fs.flatten) = .ok T := by
  have hT' := txt_of hT
  have hlen := Good.length hg
  have hfl : ∀ (fuel pos : Nat) (R : List UInt8 → Nat) (z : Nat) (fs : List (List Tok)), mainLoop T thr (width T) (T.length + 1) fuel pos R z = .ok fs →
      fs.length ≤ fs.flatten.length := by
    intro fuel
    induction fuel with
    | zero => intro _ _ _ _ h; cases h
    | succ fuel ih =>
      intro pos R z fs h
      unfold mainLoop at h
      have key : ∀ (ts : List Tok) (r : List (List Tok)) (p : Nat) (R' : List UInt8 → Nat) (q b e ref : Nat),
          output T R thr z (T.length + 1) b e ref = .ok ts → mainLoop T thr (width T) (T.length + 1) fuel p R' q = .ok r → (ts :: r).length ≤ (ts :: r).flatten.length := by
        intro ts r p R' q b e ref h1 h2
        obtain ⟨x, xs, rfl⟩ := output_head h1
        have := ih _ _ _ _ h2
        simp only [List.length_cons, List.flatten_cons, List.length_append]
        omega
      split at h
      · simp only at h
        split at h
        · cases ho : output T R thr z (T.length + 1) (pos + (depths T pos).getLastD 0) (pos + (depths T pos).getLastD 0 + 1) (R (label T pos ((depths T pos).getLastD 0))) with
          | error x => rw [ho] at h; cases h
          | ok ts =>
            rw [ho, bind_ok] at h
            cases hr : mainLoop T thr (width T) (T.length + 1) fuel (pos + (depths T pos).getLastD 0 + 1) R (z + 1) with
            | error x => rw [hr] at h; cases h
            | ok r =>
              rw [hr, bind_ok] at h
              injection h with h
              subst h
              exact key _ _ _ _ _ _ _ _ ho hr
        · cases hc : climb2 T R pos 0 (depths T pos).tail with
          | error x => rw [hc] at h; cases h
          | ok p =>
            rw [hc, bind_ok] at h
            cases ho : output T R thr z (T.length + 1) (pos + p.1) (pos + p.2) (R (label T pos p.1)) with
            | error x => rw [ho] at h; cases h
            | ok ts =>
              rw [ho, bind_ok] at h
              cases hr : mainLoop T thr (width T) (T.length + 1) fuel (pos + p.2) (assign R (width T) (label T pos p.2) (z + 1)) (z + 1) with
              | error x => rw [hr] at h; cases h
              | ok r =>
                rw [hr, bind_ok] at h
                injection h with h
                subst h
                exact key _ _ _ _ _ _ _ _ ho hr
      · injection h with h
        subst h
        simp
  have hfl' := hfl _ _ _ _ _ hfs
  have h := decLoop_eq (c1 := c1) (c2 := c2) hT' (w := width T) (sf := T.length + 1) hthr hn (T.length + 1) 0 (fun _ => 0) [] fs
    ((encs c1 c2 fs.flatten).length + 1) hfs ⟨rfl, fun k h => absurd rfl h⟩ (Nat.le_refl _) (by simpa using hw) hg (by omega) (Nat.zero_le _)
  rw [decBits, h, bind_ok, show min 0 (T.length - 1) = 0 by omega, hT'.full]

/-- **C45.** Every text ending with its only null byte, every threshold from 1 and any two universal coders: `compress` succeeds, and if
the number of factors fits into the entries of the table `R` then `decompress` restores the text.
Missing: more factors than the entries of `R` can hold; there it is false (`lz78u_overflow_lossy`). -/
theorem lz78u_lossless_partial (n1 n2 : CoderName) (thr : Nat) (T : List UInt8) (hT : Sentinel T) (hn : T.length < 2 ^ 32) (hthr : 1 ≤ thr) :
    ∃ fs bytes, factors (T.length + 1) thr T = .ok fs ∧ compress n1.coder n2.coder (T.length + 1) thr T = .ok bytes ∧
      (fs.length < 2 ^ width T → decompress n1.coder n2.coder bytes = .ok T) := by
  obtain ⟨fs, h1, h2, h3⟩ := factors_total hT hn hthr
  refine ⟨fs, _, h1, by rw [compress, h1, bind_ok], fun hw => ?_⟩
  rw [decompress, bitsOf_toBytes]
  refine decBits_eq hT hn hthr h1 hw fun t ht => ?_
  have := h2 t ht
  cases t with
  | ref v r => exact n1.lawful.tokOk this
  | sep b => trivial
  | chr c => exact n2.lawful.tokOk ⟨Nat.zero_le _, by have := c.toNat_lt; show c.toNat ≤ 255; omega, by show 255 < 2 ^ 64; decide⟩

/-- **C45.** In particular when the entries of `R` can hold the length of the text, e.g. if the alphabet and the length of the text have
equally many bits. -/
theorem lz78u_lossless_wide (n1 n2 : CoderName) (thr : Nat) (T : List UInt8) (hT : Sentinel T) (hn : T.length < 2 ^ 32) (hthr : 1 ≤ thr)
    (hw : T.length < 2 ^ width T) :
    ∃ bytes, compress n1.coder n2.coder (T.length + 1) thr T = .ok bytes ∧ decompress n1.coder n2.coder bytes = .ok T := by
  obtain ⟨fs, bytes, h1, h2, h3⟩ := lz78u_lossless_partial n1 n2 thr T hT hn hthr
  obtain ⟨fs', g1, g2, g3⟩ := factors_total hT hn hthr
  rw [h1] at g1
  injection g1 with g1
  subst g1
  exact ⟨bytes, h2, h3 (by omega)⟩

/-- a case that meets all hypotheses: eight characters, five factors, four of them factorized -/
example : Sentinel [97, 98, 97, 97, 98, 97, 98, 0] ∧ ∃ fs, factors 9 1 [97, 98, 97, 97, 98, 97, 98, 0] = .ok fs ∧ fs.length = 5 ∧
    fs.length < 2 ^ width [97, 98, 97, 97, 98, 97, 98, 0] := by
  refine ⟨⟨[97, 98, 97, 97, 98, 97, 98], rfl, by decide⟩, ?_⟩
  cases h : factors 9 1 [97, 98, 97, 97, 98, 97, 98, 0] with
  | error e =>
    have : (match factors 9 1 [97, 98, 97, 97, 98, 97, 98, 0] with | .ok _ => true | .error _ => false) = true := by decide +kernel
    rw [h] at this
    cases this
  | ok fs =>
    have : (match factors 9 1 [97, 98, 97, 97, 98, 97, 98, 0] with
      | .ok fs => decide (fs.length = 5 ∧ fs.length < 2 ^ width [97, 98, 97, 97, 98, 97, 98, 0]) | .error _ => false) = true := by decide +kernel
    rw [h] at this
    simp only [decide_eq_true_eq] at this
    exact ⟨fs, rfl, this.1, this.2⟩

/-! ### The buffering strategy with the Huffman coder -/

theorem encHuff_eq {c1 c2 : UCoder} {ls : List UInt8} {m : Huff.Mode} : ∀ (ts : List Tok),
    (∀ c ∈ chars ts, Huff.encode ls m .literal c.toNat = .ok (c2.enc .literal c.toNat)) → encHuff c1 ls m ts = .ok (encs c1 c2 ts)
  | [], _ => rfl
  | t :: ts, h => by
    have ih := encHuff_eq (c1 := c1) ts fun c hc => h c (by
      unfold chars at hc ⊢
      rw [List.filterMap_cons]
      split
      · exact hc
      · exact List.mem_cons_of_mem _ hc)
    cases t with
    | ref v r => rw [encHuff, bind_ok, ih, bind_ok]; rfl
    | sep b => rw [encHuff, bind_ok, ih, bind_ok]; rfl
    | chr c => rw [encHuff, h c (by simp [chars]), bind_ok, ih, bind_ok]; rfl

theorem decStr_congr {c c' : UCoder} (h : c'.dec = c.dec) : ∀ (fuel : Nat) (buf : List UInt8) (bs : List Bool), decStr c' fuel buf bs = decStr c fuel buf bs
  | 0, _, _ => rfl
  | fuel + 1, buf, bs => by
    unfold decStr
    rw [h]
    simp only [decStr_congr h fuel]

theorem decSub_congr {c1 c c' : UCoder} (h : c'.dec = c.dec) (D : List (Nat × List UInt8)) (cnt : Nat) : ∀ (fuel : Nat) (buf : List UInt8) (bs : List Bool),
    decSub c1 c' D cnt fuel buf bs = decSub c1 c D cnt fuel buf bs
  | 0, _, _ => rfl
  | fuel + 1, buf, bs => by
    have e : decSubStep c1 c' D cnt buf bs = decSubStep c1 c D cnt buf bs := by
      unfold decSubStep
      rw [h]
    unfold decSub
    rw [e]
    simp only [decSub_congr h D cnt fuel]

theorem decLoop_congr {c1 c c' : UCoder} (h : c'.dec = c.dec) : ∀ (fuel : Nat) (D : List (Nat × List UInt8)) (bs : List Bool),
    decLoop c1 c' fuel D bs = decLoop c1 c fuel D bs
  | 0, _, _ => rfl
  | fuel + 1, D, bs => by
    unfold decLoop decLabel
    simp only [decLoop_congr h fuel, decStr_congr h, decSub_congr h]

/-- everything the encoder writes is a byte of the text or the terminator 0 -/
theorem subLoop_chars {T : List UInt8} {R : List UInt8 → Nat} {thr cnt e : Nat} : ∀ (fuel pos : Nat) (r : List Tok), subLoop T R thr cnt e fuel pos = .ok r →
    ∀ c ∈ chars r, c ∈ T
  | 0, _, _, h => by cases h
  | fuel + 1, pos, r, h => by
    unfold subLoop at h
    split at h
    · simp only at h
      split at h
      · cases hv : vget T pos with
        | error x => rw [hv] at h; cases h
        | ok c =>
          rw [hv, bind_ok] at h
          cases hr : subLoop T R thr cnt e fuel (pos + 1) with
          | error x => rw [hr] at h; cases h
          | ok r' =>
            rw [hr, bind_ok] at h
            injection h with h
            subst h
            intro d hd
            have ih := subLoop_chars fuel (pos + 1) r' hr
            simp only [chars, List.filterMap_cons, List.mem_cons] at hd
            rcases hd with rfl | hd
            · unfold vget at hv
              split at hv
              · next a ha =>
                injection hv with hv
                subst hv
                exact List.mem_of_getElem? ha
              · cases hv
            · exact ih d hd
      · generalize climb T R pos 0 (depths T pos).tail = d at h
        cases hr : subLoop T R thr cnt e fuel (pos + d) with
        | error x => rw [hr] at h; cases h
        | ok r' =>
          rw [hr, bind_ok] at h
          injection h with h
          subst h
          intro c hc
          have ih := subLoop_chars fuel (pos + d) r' hr
          simp only [chars, List.filterMap_cons, List.filterMap_append] at hc
          rcases List.mem_append.1 hc with hc | hc
          · split at hc <;> simp at hc
          · exact ih c hc
    · injection h with h
      subst h
      intro c hc
      cases hc

theorem output_chars {T : List UInt8} {R : List UInt8 → Nat} {thr cnt sf b e0 ref : Nat} {ts : List Tok} (h : output T R thr cnt sf b e0 ref = .ok ts) :
    ∀ c ∈ chars ts, c ∈ T ∨ c = 0 := by
  unfold output at h
  cases hs : strip T e0 with
  | error x => rw [hs] at h; cases h
  | ok e =>
    rw [hs, bind_ok] at h
    split at h
    · cases hr : subLoop T R thr cnt e sf b with
      | error x => rw [hr] at h; cases h
      | ok r =>
        rw [hr, bind_ok] at h
        injection h with h
        subst h
        intro c hc
        simp only [chars, List.filterMap_cons, List.filterMap_append, List.mem_append, List.filterMap_nil, List.mem_singleton] at hc
        rcases hc with hc | hc
        · exact Or.inl (subLoop_chars sf b r hr c hc)
        · exact Or.inr hc
    · injection h with h
      subst h
      intro c hc
      simp only [chars, List.filterMap_cons, List.filterMap_append, List.mem_append, List.filterMap_nil, List.mem_singleton, List.filterMap_map] at hc
      rcases hc with hc | hc
      · obtain ⟨d, hd, he⟩ := List.mem_filterMap.1 hc
        simp only [Function.comp_apply, Option.some.injEq] at he
        subst he
        exact Or.inl (List.mem_of_mem_drop (List.mem_of_mem_take hd))
      · exact Or.inr hc

theorem mainLoop_chars {T : List UInt8} {thr w sf : Nat} : ∀ (fuel pos : Nat) (R : List UInt8 → Nat) (z : Nat) (fs : List (List Tok)),
    mainLoop T thr w sf fuel pos R z = .ok fs → ∀ c ∈ chars fs.flatten, c ∈ T ∨ c = 0
  | 0, _, _, _, _, h => by cases h
  | fuel + 1, pos, R, z, fs, h => by
    have key : ∀ (ts : List Tok) (r : List (List Tok)) (p : Nat) (R' : List UInt8 → Nat) (b e ref : Nat),
        output T R thr z sf b e ref = .ok ts → mainLoop T thr w sf fuel p R' (z + 1) = .ok r → ∀ c ∈ chars (ts :: r).flatten, c ∈ T ∨ c = 0 := by
      intro ts r p R' b e ref h1 h2 c hc
      simp only [chars, List.flatten_cons, List.filterMap_append, List.mem_append] at hc
      rcases hc with hc | hc
      · exact output_chars h1 c hc
      · exact mainLoop_chars fuel _ _ _ r h2 c hc
    unfold mainLoop at h
    split at h
    · simp only at h
      split at h
      · cases ho : output T R thr z sf (pos + (depths T pos).getLastD 0) (pos + (depths T pos).getLastD 0 + 1) (R (label T pos ((depths T pos).getLastD 0))) with
        | error x => rw [ho] at h; cases h
        | ok ts =>
          rw [ho, bind_ok] at h
          cases hr : mainLoop T thr w sf fuel (pos + (depths T pos).getLastD 0 + 1) R (z + 1) with
          | error x => rw [hr] at h; cases h
          | ok r =>
            rw [hr, bind_ok] at h
            injection h with h
            subst h
            exact key _ _ _ _ _ _ _ ho hr
      · cases hc : climb2 T R pos 0 (depths T pos).tail with
        | error x => rw [hc] at h; cases h
        | ok p =>
          rw [hc, bind_ok] at h
          cases ho : output T R thr z sf (pos + p.1) (pos + p.2) (R (label T pos p.1)) with
          | error x => rw [ho] at h; cases h
          | ok ts =>
            rw [ho, bind_ok] at h
            cases hr : mainLoop T thr w sf fuel (pos + p.2) (assign R w (label T pos p.2) (z + 1)) (z + 1) with
            | error x => rw [hr] at h; cases h
            | ok r =>
              rw [hr, bind_ok] at h
              injection h with h
              subst h
              exact key _ _ _ _ _ _ _ ho hr
    · injection h with h
      subst h
      intro c hc
      cases hc

/-- **C45, with C25.** The buffering strategy with the Huffman coder for the characters. Missing besides the above: byte 255. -/
theorem lz78u_huffman_lossless_partial (std : StdLib) (n1 : CoderName) (thr : Nat) (T : List UInt8) (hT : Sentinel T) (hn : T.length < 2 ^ 32)
    (hthr : 1 ≤ thr) (h255 : (255 : UInt8) ∉ T) :
    ∃ fs, factors (T.length + 1) thr T = .ok fs ∧ ((chars fs.flatten).length < 2 ^ 32 →
      ∃ bytes, compressHuff std n1.coder (T.length + 1) thr T = .ok bytes ∧ (fs.length < 2 ^ width T → decompressHuff n1.coder bytes = .ok T)) := by
  obtain ⟨fs, h1, h2, h3⟩ := factors_total hT hn hthr
  refine ⟨fs, h1, fun hlen => ?_⟩
  obtain ⟨c, m, hdr, d, e1, e2, e3, e4, e5⟩ := huff_coder std (chars fs.flatten) hlen (fun h => by
    rcases mainLoop_chars _ _ _ _ _ h1 _ h with h | h
    · exact h255 h
    · exact absurd h (by decide))
  have henc := encHuff_eq (c1 := n1.coder) (c2 := c) fs.flatten e4
  refine ⟨BitO.toBytes (hdr ++ encs n1.coder c fs.flatten), by rw [compressHuff, h1, bind_ok, e1, bind_ok, henc, bind_ok], fun hw => ?_⟩
  rw [decompressHuff, bitsOf_toBytes, e2, bind_ok, decBits]
  simp only [decLoop_congr e3]
  refine decBits_eq hT hn hthr h1 hw fun t ht => ?_
  have := h2 t ht
  cases t with
  | ref v r => exact n1.lawful.tokOk this
  | sep b => trivial
  | chr x => exact e5 x (List.mem_filterMap.2 ⟨_, ht, rfl⟩)

/-! ### Where it fails -/

theorem climb_zero (T : List UInt8) (pos : Nat) : ∀ ds, climb T (fun _ => 0) pos 0 ds = 0
  | [] => rfl
  | d :: ds => by
    unfold climb
    rw [if_neg (by simp)]

theorem subLoop_zero (T : List UInt8) (cnt e pos : Nat) (h : pos < e) : ∀ fuel, subLoop T (fun _ => 0) 0 cnt e fuel pos = .error .loop
  | 0 => rfl
  | fuel + 1 => by
    unfold subLoop
    simp only [climb_zero]
    rw [if_pos h, if_neg (by omega), Nat.add_zero, subLoop_zero T cnt e pos h fuel]
    rfl

/-- **C45 (limit of the claim).** With `threshold = 0` the compressor never ends, on any text of at least one character. -/
theorem lz78u_threshold_zero_hangs (T : List UInt8) (hT : Sentinel T) (h1 : 1 < T.length) (fuel : Nat) : factors fuel 0 T = .error .loop := by
  have hT' := txt_of hT
  have key : ∀ (fuel b e : Nat), b < e → e ≤ T.length - 1 → output T (fun _ => 0) 0 0 fuel b e 0 = .error .loop := by
    intro fuel b e hbe he
    obtain ⟨e', s1, s2, s3, s4⟩ := strip_eq hT' hbe (by omega) h1
    unfold output
    rw [s1, bind_ok, if_pos (Nat.zero_le _), subLoop_zero T 0 e' b (by omega)]
    rfl
  cases fuel with
  | zero => rfl
  | succ fuel =>
    unfold factors mainLoop
    rw [if_pos (by omega)]
    simp only
    obtain ⟨ds, hd, h2, h3⟩ := depths_cons (T := T) (pos := 0) (by omega)
    by_cases hp : (depths T 0).getLastD 0 = 0 ∨ (0 : Nat) ≠ 0
    · rw [if_pos hp, hp.resolve_right (by simp), key _ _ _ (by omega) (by omega)]
      rfl
    · rw [if_neg hp]
      obtain ⟨a, b, q1, q2, q3, q4, q5⟩ := climb2_depths (T := T) (R := fun _ => 0) (pos := 0) (by omega) hp
      rw [q1, bind_ok, key _ _ _ (by simp only; omega) (by simp only; omega)]
      rfl

/-- 72 characters with more factors than the entries of `R` can number -/
def overflowText : List UInt8 :=
  [6, 1, 2, 4, 5, 5, 3, 1, 3, 1, 4, 2, 5, 1, 1, 2, 6, 6, 2, 6, 6, 3, 1, 1, 6, 3, 1, 6, 5, 2, 4, 2, 1, 1, 4, 4, 2, 3, 2, 2, 3, 1, 2, 3, 4, 3, 3, 5, 2, 5, 6, 5,
    4, 3, 6, 3, 6, 2, 6, 4, 4, 6, 6, 1, 3, 2, 4, 4, 6, 1, 6, 2, 0]

/-- **C45 (negation).** The entries of `R` have `bits_for(n * bits_for(sigma) / bits_for(n))` bits, which is not always enough for the
factor numbers: there is a text of 72 characters that is not restored. -/
theorem lz78u_overflow_lossy : Sentinel overflowText ∧ ∃ bytes, compress bitCoder bitCoder (overflowText.length + 1) 3 overflowText = .ok bytes ∧
    decompress bitCoder bitCoder bytes ≠ .ok overflowText := by
  refine ⟨⟨overflowText.dropLast, by decide, by decide⟩, ?_⟩
  have h : (match compress bitCoder bitCoder (overflowText.length + 1) 3 overflowText with
      | .ok b => (match decompress bitCoder bitCoder b with | .ok x => decide (x.length = 72) | .error _ => false) | .error _ => false) = true := by
    decide +kernel
  cases hc : compress bitCoder bitCoder (overflowText.length + 1) 3 overflowText with
  | error e => rw [hc] at h; cases h
  | ok b =>
    rw [hc] at h
    refine ⟨b, rfl, fun hd => ?_⟩
    simp only [hd] at h
    revert h
    decide

end U78
end Tdc
