import Verif.Lemmas.RePair
import Verif.Lemmas.HuffFile

/-!
# Properties C43 and C44: RePairCompressor

`opt` is the option `max_rules` (0 = unlimited).
-/

namespace Tdc
namespace RePair

open Arith (bind_ok)

/-- What is used of the grammar below. -/
theorem grammar_spec (opt : Nat) (text : List UInt8) (hne : text ≠ []) (hn : text.length + 256 < 2 ^ 32) :
    ∃ T N g l, grammar opt text = .ok (T, N, g) ∧ walk text.length T N (text.length + 1) 0 = .ok l ∧
      Runs (maxRules opt) [] (text.map UInt8.toNat) (pairs g) l ∧ DerivesAll (pairs g) l text ∧ Ordered (pairs g) ∧
      (∀ x ∈ l, x < 256 + g.length) ∧ g.length + l.length ≤ text.length ∧ (∀ x ∈ g, ∃ a b, a < 2 ^ 32 ∧ b < 2 ^ 32 ∧ x = digram a b) := by
  obtain ⟨T, N, g, l, h1, h2, h3, h4⟩ := grammar_eq opt text hne hn
  obtain ⟨s1, s2, s3, s4⟩ := h3.spec text (DerivesAll.bytes [] text) (fun i p h => by simp at h) (by
    intro x hx
    obtain ⟨c, _, rfl⟩ := List.mem_map.1 hx
    exact c.toNat_lt)
  rw [pairs_length] at s3 s4
  simp only [List.length_nil, List.length_map, Nat.zero_add] at s4
  exact ⟨T, N, g, l, h1, h2, h3, s1, s2, s3, s4, h4⟩

/-- **C43.** Re-Pair is lossless with every universal coder, every number of rules and every non-empty text. -/
theorem repair_lossless (n : CoderName) (opt : Nat) (text : List UInt8) (hne : text ≠ []) (hn : text.length + 256 < 2 ^ 32) :
    ∃ bytes, compress n.coder opt text = .ok bytes ∧ decompress n.coder bytes = .ok text := by
  obtain ⟨T, N, g, l, h1, h2, h3, h4, h5, h6, h7, h8⟩ := grammar_spec opt text hne hn
  refine ⟨_, by rw [compress, compressToks, h1, bind_ok, h2, bind_ok, bind_ok], ?_⟩
  rw [decompress, bitsOf_toBytes]
  exact decBits_eq (g := g) h5 (by omega) h4 h6 h8 fun t ht => n.lawful.tokOk (tokens_has h5 h6 (by omega) t ht)

/-- a case: two rules, coded with the bit coder, 8 characters -/
example : compressToks 0 [97, 98, 97, 98, 99, 97, 98, 99] = .ok
    [(.range 0 (2 ^ 32 - 1), 2), (.bit, 0), (.literal, 97), (.bit, 0), (.literal, 98), (.bit, 1), (.range 0 1, 0), (.bit, 0), (.literal, 99),
      (.bit, 1), (.range 0 2, 0), (.bit, 1), (.range 0 2, 1), (.bit, 1), (.range 0 2, 1)] := by
  decide +kernel

/-- **C43 (limit of the claim).** The empty text is not compressed: `next[0]` is read (`i < n - 1` wraps around). -/
theorem repair_empty_ub (c : UCoder) (opt : Nat) : compress c opt [] = .error .ub := by
  have h : grammar opt [] = .error .ub := by
    unfold grammar rounds countLoop
    have hp : 0 < pred32 ([] : List UInt8).length := by
      unfold pred32
      decide
    rw [if_pos hp]
    rfl
  rw [compress, compressToks, h]
  rfl

/-- **C44.** The grammar is the one of Re-Pair: in each round a most frequent digram becomes a rule and is replaced from left to
right, until `max_rules` rules exist or no digram occurs twice. What is written is this grammar and the rest of the text. -/
theorem repair_greedy (opt : Nat) (text : List UInt8) (hne : text ≠ []) (hn : text.length + 256 < 2 ^ 32) :
    ∃ g l, compressToks opt text = .ok (tokens g l) ∧
      Runs (if opt = 0 then 2 ^ 64 - 1 else opt) [] (text.map UInt8.toNat) (g.map fun di => (di / 2 ^ 32, di % 2 ^ 32)) l := by
  obtain ⟨T, N, g, l, h1, h2, h3, -⟩ := grammar_spec opt text hne hn
  exact ⟨g, l, by rw [compressToks, h1, bind_ok, h2, bind_ok], h3⟩

theorem Runs.final {k : Nat} {g g' : List (Nat × Nat)} {l l' : List Nat} (h : Runs k g l g' l') (hk : g.length < k) :
    g'.length ≤ k ∧ (g'.length < k → ∀ d, (digrams l').count d ≤ 1) := by
  induction h with
  | done h => exact ⟨by omega, fun _ => h⟩
  | full _ h =>
    simp only [List.length_append, List.length_singleton]
    exact ⟨by omega, fun h' => by omega⟩
  | step _ h _ ih => exact ih (by simpa using h)

/-- **C44.** When `compress` stops with fewer than `max_rules` rules then no digram is left that occurs twice; there are never more
than `max_rules` rules, and the symbols and rules together are no more than the characters of the text. -/
theorem repair_irreducible (opt : Nat) (text : List UInt8) (hne : text ≠ []) (hn : text.length + 256 < 2 ^ 32) :
    ∃ g l, compressToks opt text = .ok (tokens g l) ∧ g.length + l.length ≤ text.length ∧ (opt ≠ 0 → g.length ≤ opt) ∧
      (opt = 0 ∨ g.length < opt → ∀ d, (digrams l).count d ≤ 1) := by
  obtain ⟨T, N, g, l, h1, h2, h3, -, -, -, h7, -⟩ := grammar_spec opt text hne hn
  have hpos : 0 < maxRules opt := by
    unfold maxRules
    split <;> omega
  obtain ⟨f1, f2⟩ := h3.final hpos
  rw [pairs_length] at f1 f2
  unfold maxRules at f1 f2
  refine ⟨g, l, by rw [compressToks, h1, bind_ok, h2, bind_ok], h7, fun h => by rwa [if_neg h] at f1, fun h => f2 ?_⟩
  rcases h with h | h
  · rw [if_pos h]
    omega
  · split <;> omega

/-- a case: a run of one letter -/
example : Runs (maxRules 0) [] [97, 97, 97, 97] [(97, 97)] [256, 256] := by
  refine .step (d := (97, 97)) ⟨by decide, fun e => ?_⟩ (by decide) (.done fun e => ?_)
  · have : digrams [97, 97, 97, 97] = [(97, 97), (97, 97), (97, 97)] := by decide
    rw [this]
    exact List.count_le_length
  · have : digrams (replaceAll (97, 97) (256 + ([] : List (Nat × Nat)).length) [97, 97, 97, 97]) = [(256, 256)] := by decide
    rw [this]
    exact List.count_le_length

/-! ### The Huffman coder -/

theorem decSym_congr {c c' : UCoder} (h : c'.dec = c.dec) : decSym c' = decSym c := by
  funext k bs
  unfold decSym
  rw [h]

theorem decRules_congr {c c' : UCoder} (h : c'.dec = c.dec) : ∀ (m i : Nat) (bs : List Bool), decRules c' m i bs = decRules c m i bs
  | 0, _, _ => rfl
  | m + 1, i, bs => by
    unfold decRules
    rw [decSym_congr h]
    simp only [decRules_congr h m]

theorem decText_congr {c c' : UCoder} (h : c'.dec = c.dec) (g : List Nat) : ∀ (fuel : Nat) (bs : List Bool), decText c' g fuel bs = decText c g fuel bs
  | 0, _ => rfl
  | m + 1, bs => by
    unfold decText
    rw [decSym_congr h]
    simp only [decText_congr h g m]

theorem decBits_congr {c c' : UCoder} (h : c'.dec = c.dec) (bs : List Bool) : decBits c' bs = decBits c bs := by
  unfold decBits
  rw [h]
  simp only [decRules_congr h, decText_congr h]

theorem symToks_lit {k x : Nat} : ∀ t ∈ symToks k x, t.1 = .literal → t.2 = x ∧ x < 256 := by
  intro t ht he
  unfold symToks at ht
  split at ht
  · next h =>
    simp only [List.mem_cons, List.not_mem_nil, or_false] at ht
    rcases ht with rfl | rfl
    · cases he
    · exact ⟨rfl, h⟩
  · simp only [List.mem_cons, List.not_mem_nil, or_false] at ht
    rcases ht with rfl | rfl <;> cases he

theorem ruleToks_lit : ∀ (g : List Nat) (i : Nat), ∀ t ∈ ruleToks i g, t.1 = .literal → ∃ di ∈ g, (t.2 = left di ∨ t.2 = right di) ∧ t.2 < 256
  | [], _, t, ht => by simp [ruleToks] at ht
  | di :: g, i, t, ht => by
    intro he
    unfold ruleToks at ht
    rw [List.mem_append, List.mem_append] at ht
    rcases ht with (ht | ht) | ht
    · obtain ⟨a, b⟩ := symToks_lit t ht he
      exact ⟨di, by simp, Or.inl a, by omega⟩
    · obtain ⟨a, b⟩ := symToks_lit t ht he
      exact ⟨di, by simp, Or.inr a, by omega⟩
    · obtain ⟨d, hd, h⟩ := ruleToks_lit g (i + 1) t ht he
      exact ⟨d, by simp [hd], h⟩

theorem announced_covers (g l : List Nat) : ∀ t ∈ tokens g l, t.1 = .literal → ∃ c ∈ announced g l, t.2 = c.toNat := by
  intro t ht he
  have hof : ∀ x, x < 256 → x = (UInt8.ofNat x).toNat := fun x hx => by
    rw [UInt8.toNat_ofNat']
    omega
  unfold tokens at ht
  rcases List.mem_cons.1 ht with rfl | ht
  · cases he
  · unfold announced
    rcases List.mem_append.1 ht with ht | ht
    · obtain ⟨di, hdi, h, h256⟩ := ruleToks_lit g 0 t ht he
      refine ⟨UInt8.ofNat t.2, List.mem_append_right _ (List.mem_flatMap.2 ⟨di, hdi, ?_⟩), hof _ h256⟩
      rcases h with h | h
      · rw [← h, if_pos (show t.2 < sigma from h256)]
        simp
      · rw [← h, if_pos (show t.2 < sigma from h256)]
        simp
    · obtain ⟨x, hx, ht⟩ := List.mem_flatMap.1 ht
      obtain ⟨h1, h2⟩ := symToks_lit t ht he
      exact ⟨UInt8.ofNat x, List.mem_append_left _ (List.mem_map_of_mem hx), by rw [h1]; exact hof x h2⟩

/-- no symbol is 255 unless the text contains byte 255 -/
theorem Runs.no255 {k : Nat} {g g' : List (Nat × Nat)} {l l' : List Nat} (h : Runs k g l g' l') :
    (∀ x ∈ l, x ≠ 255) → (∀ p ∈ g, p.1 ≠ 255 ∧ p.2 ≠ 255) → (∀ x ∈ l', x ≠ 255) ∧ ∀ p ∈ g', p.1 ≠ 255 ∧ p.2 ≠ 255 := by
  have key : ∀ (g : List (Nat × Nat)) (l : List Nat) (d : Nat × Nat), Best l d → (∀ x ∈ l, x ≠ 255) → (∀ p ∈ g, p.1 ≠ 255 ∧ p.2 ≠ 255) →
      (∀ x ∈ replaceAll d (256 + g.length) l, x ≠ 255) ∧ ∀ p ∈ g ++ [d], p.1 ≠ 255 ∧ p.2 ≠ 255 := by
    intro g l d hb h1 h2
    have hd : d ∈ digrams l := List.count_pos_iff.1 (by have := hb.1; omega)
    refine ⟨fun x hx => ?_, fun p hp => ?_⟩
    · rcases mem_replaceAll d _ _ _ (Nat.le_refl _) x hx with h | h
      · omega
      · exact h1 x h
    · rcases List.mem_append.1 hp with h | h
      · exact h2 p h
      · rw [List.mem_singleton.1 h]
        exact ⟨h1 _ (digrams_mem hd).1, h1 _ (digrams_mem hd).2⟩
  induction h with
  | done h => exact fun h1 h2 => ⟨h1, h2⟩
  | full hb _ => exact fun h1 h2 => key _ _ _ hb h1 h2
  | step hb _ _ ih =>
    intro h1 h2
    obtain ⟨a, b⟩ := key _ _ _ hb h1 h2
    exact ih a b

theorem announced_length (g l : List Nat) : (announced g l).length ≤ l.length + 2 * g.length := by
  unfold announced
  rw [List.length_append, List.length_map]
  have : ∀ g : List Nat, (g.flatMap fun di => (if left di < sigma then [UInt8.ofNat (left di)] else []) ++
      (if right di < sigma then [UInt8.ofNat (right di)] else [])).length ≤ 2 * g.length := by
    intro g
    induction g with
    | nil => simp
    | cons d g ih =>
      rw [List.flatMap_cons, List.length_append, List.length_append, List.length_cons]
      have h1 : ∀ y, (if left y < sigma then [UInt8.ofNat (left y)] else []).length ≤ 1 := by
        intro y
        split <;> simp
      have h2 : ∀ y, (if right y < sigma then [UInt8.ofNat (right y)] else []).length ≤ 1 := by
        intro y
        split <;> simp
      have := h1 d
      have := h2 d
      omega
  have := this g
  omega

/-- **C43, with C25.** Re-Pair with the Huffman coder: lossless for every text without byte 255 if there are at most 255 rules (by
option or because the text is short). Missing: byte 255 and more rules, where it fails (`repair_huffman_phantom`). -/
theorem repair_huffman_lossless_partial (std : StdLib) (opt : Nat) (text : List UInt8) (hne : text ≠ []) (hn : 2 * text.length + 256 < 2 ^ 32)
    (h255 : (255 : UInt8) ∉ text) (hopt : (0 < opt ∧ opt ≤ 255) ∨ text.length ≤ 255) :
    ∃ bytes, compressHuff std opt text = .ok bytes ∧ decompressHuff bytes = .ok text := by
  obtain ⟨T, N, g, l, h1, h2, h3, h4, h5, h6, h7, h8⟩ := grammar_spec opt text hne (by omega)
  have hpos : 0 < maxRules opt := by
    unfold maxRules
    split <;> omega
  have hg : g.length ≤ 255 := by
    rcases hopt with h | h
    · have := (h3.final hpos).1
      rw [pairs_length] at this
      unfold maxRules at this
      rw [if_neg (by omega)] at this
      omega
    · omega
  obtain ⟨n1, n2⟩ := h3.no255 (by
    intro x hx
    obtain ⟨c, hc, rfl⟩ := List.mem_map.1 hx
    intro h
    exact h255 (by rwa [show c = 255 from UInt8.toNat.inj h] at hc)) (by simp)
  have hann : (255 : UInt8) ∉ announced g l := by
    intro h
    have hof : ∀ x, x < 511 → UInt8.ofNat x = 255 → x = 255 := by
      intro x hx h
      have := congrArg UInt8.toNat h
      rw [UInt8.toNat_ofNat'] at this
      simp only [UInt8.reduceToNat] at this
      omega
    unfold announced at h
    rcases List.mem_append.1 h with h | h
    · obtain ⟨x, hx, he⟩ := List.mem_map.1 h
      exact n1 x hx (hof x (by have := h6 x hx; omega) he)
    · obtain ⟨di, hdi, h⟩ := List.mem_flatMap.1 h
      obtain ⟨m1, m2⟩ := n2 _ (List.mem_map_of_mem hdi)
      rcases List.mem_append.1 h with h | h
      · split at h
        · next hs =>
          exact m1 (hof _ (by unfold sigma at hs; omega) (List.mem_singleton.1 h).symm)
        · cases h
      · split at h
        · next hs =>
          exact m2 (hof _ (by unfold sigma at hs; omega) (List.mem_singleton.1 h).symm)
        · cases h
  have hlen := announced_length g l
  obtain ⟨bytes, c, d, e1, e2, e3, e4⟩ := huff_file std (announced g l) (tokens g l) (by omega) hann (announced_covers g l) (tokens_has h5 h6 (by omega))
  refine ⟨bytes, by rw [compressHuff, h1, bind_ok, h2, bind_ok, e1], ?_⟩
  rw [decompressHuff, e2, bind_ok, decBits_congr e3]
  exact decBits_eq h5 (by omega) h4 h6 h8 e4

/-- the hypotheses are met by a text that yields rules (see the case above) -/
example : ([97, 98, 97, 98, 99, 97, 98, 99] : List UInt8) ≠ [] ∧ (255 : UInt8) ∉ ([97, 98, 97, 98, 99, 97, 98, 99] : List UInt8) := by decide

/-- **C43 (negation).** Nonterminals are announced to the Huffman coder as the byte they are congruent to. As soon as the symbol of
rule 255 (number 511) stays in the text together with any other byte, `compress` has no defined result, even if byte 255 does not occur. -/
theorem repair_huffman_phantom (std : StdLib) (opt : Nat) (text : List UInt8) (T N g l : List Nat) (hl : l.length + 2 * g.length < 2 ^ 32)
    (h1 : grammar opt text = .ok (T, N, g)) (h2 : walk text.length T N (text.length + 1) 0 = .ok l) (h511 : 511 ∈ l)
    (c : Nat) (hc : c ∈ l) (hne : c % 256 ≠ 255) (bytes : List UInt8) : compressHuff std opt text ≠ .ok bytes := by
  rw [compressHuff, h1, bind_ok, h2, bind_ok]
  refine huffman_byte255_broken std (announced g l) _ (by have := announced_length g l; omega) ?_ (UInt8.ofNat c) ?_ ?_ bytes
  · exact List.mem_append_left _ (List.mem_map.2 ⟨511, h511, by decide⟩)
  · exact List.mem_append_left _ (List.mem_map_of_mem hc)
  · intro h
    have := congrArg UInt8.toNat h
    rw [UInt8.toNat_ofNat'] at this
    exact hne this

end RePair
end Tdc
