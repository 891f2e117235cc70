import Verif.Lemmas.LZ78
import Verif.Props.Trie

/-!
# Properties C10, C11: LZ78

`lz78Compress T c dms text` are the bytes that `lz78(coder = c, lz78trie = T, dict_size = dms)` writes,
`lz78Decompress` reads them back.
-/

namespace Tdc

theorem coder_schar (n : CoderName) (ch : UInt8) (h : n = .bit ∨ n = .ascii ∨ ch.toNat < 128) :
    n.coder.encSChar ch = some (n.coder.enc .literal ch.toNat) := by
  cases n with
  | bit => exact bitCoder_schar ch
  | ascii => exact asciiCoder_schar ch
  | gamma =>
    rcases h with h | h | h
    · simp at h
    · simp at h
    · simp [CoderName.coder, gammaCoder, h]
  | delta =>
    rcases h with h | h | h
    · simp at h
    · simp at h
    · simp [CoderName.coder, deltaCoder, h]
  | ternary =>
    rcases h with h | h | h
    · simp at h
    · simp at h
    · simp [CoderName.coder, ternaryCoder, h]

/-- **C10 (partial).** With the `binary`, `binary_sorted` or `ternary` trie, any universal coder and an unlimited
dictionary, every text (shorter than 2^32 - 2 bytes) is reproduced, provided that the coder is `bit` or `ascii` or
the last byte of the text is below 128. The remaining case is undefined behaviour, see `lz78_gamma_ub`. -/
theorem lz78_lossless_partial (t : PtrTrie) (n : CoderName) (text : List UInt8)
    (hlen : text.length + 1 < 2 ^ 32 - 1)
    (hlast : n = .bit ∨ n = .ascii ∨ ∀ ch, text.getLast? = some ch → ch.toNat < 128) :
    ∃ bytes, lz78Compress t.impl n.coder 0 text = .ok bytes ∧ lz78Decompress n.coder bytes = .ok text := by
  obtain ⟨R, sim, rst⟩ := t.exists_sim
  refine lz78_roundtrip sim (by cases t <;> rfl) n.lawful 0 text (fun _ _ _ _ _ _ _ _ => trivial) ?_ hlen (Or.inl rfl)
  intro ch hch
  refine coder_schar n ch ?_
  rcases hlast with h | h | h
  · exact Or.inl h
  · exact Or.inr (Or.inl h)
  · exact Or.inr (Or.inr (h ch hch))

/-- **C10.** The default configuration `lz78` = `lz78(bit, ternary)`, and the `ascii` coder, are lossless for every
text. -/
theorem lz78_lossless (t : PtrTrie) (n : CoderName) (hn : n = .bit ∨ n = .ascii) (text : List UInt8)
    (hlen : text.length + 1 < 2 ^ 32 - 1) :
    ∃ bytes, lz78Compress t.impl n.coder 0 text = .ok bytes ∧ lz78Decompress n.coder bytes = .ok text :=
  lz78_lossless_partial t n text hlen (by rcases hn with h | h <;> simp [h])

example : lz78Loop ternaryTrie 0 [97, 97, 98, 97, 97, 97] (ternaryTrie.addRoot ternaryTrie.empty 0) 0 0 0 0 =
    .ok [.tok (.range 0 0) 0, .tok .literal 97, .tok (.range 0 1) 1, .tok .literal 98, .tok (.range 0 2) 1,
      .tok .literal 97, .tok (.range 0 3) 0, .schar 97] := by
  rfl

/-- **C10 (negation).** With `gamma` or `delta`, a text whose last factor is incomplete and ends with a byte ≥ 128 makes
`compress` shift a `char` by 63 bits: undefined behaviour. -/
theorem lz78_gamma_ub (n : CoderName) (hn : n = .gamma ∨ n = .delta) (t : PtrTrie) (b : UInt8) (hb : 128 ≤ b.toNat) :
    lz78Compress t.impl n.coder 0 [b, b] = .error .ub := by
  have h : ∀ (T : TrieImpl) (R : T.σ → Dict → Option Nat → Prop), TrieSim T R (fun _ _ _ => True) →
      T.clear T.empty = T.empty → ∃ x, (let s := T.addRoot (T.clear T.empty) 0
        let (s, root) := T.getRoot s 0
        lz78Loop T 0 [b, b] s root root 0 0) = .ok (x ++ [.tok (.range 0 1) 0, .schar b]) ∧
          ∀ e ∈ x, ∃ r v, e = .tok r v := by
    intro T R sim hc
    have h1 := sim.addRoot _ _ 0 sim.empty (by simp) rfl
    obtain ⟨h2, h3⟩ := sim.getRoot _ _ 0 h1 rfl
    have hf1 : Dict.find [(none, 0)] 0 b = none := rfl
    obtain ⟨s1, e1, e2⟩ := sim.miss _ _ 0 b h3 (by simp) (by simp [undefId]) trivial hf1
    have hf2 : Dict.find [(none, 0), (some 0, b)] 0 b = some 1 := by
      simp [Dict.find, List.findIdx?_cons]
    obtain ⟨h4, h5⟩ := sim.getRoot _ _ 0 e2 rfl
    have hsz := sim.size _ _ _ h5
    obtain ⟨s2, e3, e4⟩ := sim.hit _ _ 0 b 1 h5 (by simp) (by simp [undefId]) trivial hf2
    have h2' : (T.getRoot (T.addRoot T.empty 0) 0).2 = 0 := h2
    have h4' : (T.getRoot s1 0).2 = 0 := h4
    refine ⟨[.tok (.range 0 0) 0, .tok .literal b.toNat], ?_, by simp⟩
    have hsz' : T.size (T.getRoot s1 0).1 = 2 := hsz
    simp only [hc, h2', lz78Loop]
    rw [show T.findOrInsert (T.getRoot (T.addRoot T.empty 0) 0).1 0 b = _ from e1]
    simp only [hsz', h4']
    rw [e3]
    simp
  obtain ⟨R, sim, _⟩ := t.exists_sim
  obtain ⟨x, h1, h2⟩ := h t.impl R sim (by cases t <;> rfl)
  have h3 : n.coder.encSChar b = none := by
    rcases hn with rfl | rfl
    · simp [CoderName.coder, gammaCoder, Nat.not_lt.mpr hb]
    · simp [CoderName.coder, deltaCoder, Nat.not_lt.mpr hb]
  have h4 : n.coder.encEmits (x ++ [.tok (.range 0 1) 0, .schar b]) = .error .ub := by
    clear h1
    induction x with
    | nil => simp [UCoder.encEmits, h3]
    | cons e x ih =>
      obtain ⟨r, v, rfl⟩ := h2 e (by simp)
      rw [List.cons_append, UCoder.encEmits, ih (fun e he => h2 e (by simp [he]))]
  simp only [lz78Compress]
  simp only at h1
  rw [h1]
  simp only [h4]

/-- **C10 (hash tries, partial).** With `HashTrie`/`ExtHashTrie` texts without zero bytes are reproduced. -/
theorem lz78_hash_lossless_partial (clears : Bool) (n : CoderName) (text : List UInt8)
    (hlen : text.length + 1 < 2 ^ 32 - 1) (hzero : (0 : UInt8) ∉ text)
    (hlast : n = .bit ∨ n = .ascii ∨ ∀ ch, text.getLast? = some ch → ch.toNat < 128) :
    ∃ bytes, lz78Compress (hashTrie clears) n.coder 0 text = .ok bytes ∧ lz78Decompress n.coder bytes = .ok text := by
  refine lz78_roundtrip (hashTrie_sim clears) (by cases clears <;> rfl) n.lawful 0 text ?_ ?_ hlen (Or.inl rfl)
  · intro d p w ch hd _ _ hin _ hm
    obtain ⟨i, hi⟩ := List.mem_iff_getElem?.mp hm
    have := hd.only i ch hi
    subst this
    rw [hd.root] at hi
    simp at hi
    subst hi
    exact hzero (hin.subset (by simp))
  · intro ch hch
    refine coder_schar n ch ?_
    rcases hlast with h | h | h
    · exact Or.inl h
    · exact Or.inr (Or.inl h)
    · exact Or.inr (Or.inr (h ch hch))

/-- **C10 (negation for hash tries).** A text consisting of a single zero byte is lost. -/
theorem lz78_hash_zero_lost (clears : Bool) (n : CoderName) :
    ∃ bytes, lz78Compress (hashTrie clears) n.coder 0 [0] = .ok bytes ∧ lz78Decompress n.coder bytes = .ok [] := by
  refine ⟨BitO.toBytes [], by cases clears <;> rfl, ?_⟩
  simp only [lz78Decompress, bitsOf_toBytes]; rfl

/-- **C10 (rolling hash trie, partial).** With `RollingTrie` over any rolling hash, a text is reproduced if the
hash has no collision among single bytes nor among the strings `0·u`, `u` a substring of the text. -/
theorem lz78_rolling_lossless_partial (H : Roller) (n : CoderName) (text : List UInt8)
    (hlen : text.length + 1 < 2 ^ 32 - 1) (hroot : ∀ a b : UInt8, H.hash [a] = H.hash [b] → a = b)
    (hinj : ∀ u v, u <:+: text → v <:+: text → H.hash (0 :: u) = H.hash (0 :: v) → u = v)
    (hlast : n = .bit ∨ n = .ascii ∨ ∀ ch, text.getLast? = some ch → ch.toNat < 128) :
    ∃ bytes, lz78Compress (rollingTrie H) n.coder 0 text = .ok bytes ∧ lz78Decompress n.coder bytes = .ok text := by
  refine lz78_roundtrip (rollingTrie_sim H hroot) rfl n.lawful 0 text ?_ ?_ hlen (Or.inl rfl)
  · intro d p w ch hd hpaths hp hin k u v hu hv heq
    have hv' := hv.det hp
    subst hv'
    have hcons : ∀ {k : Nat} {u : List UInt8}, Path d k u → ∃ u', u = 0 :: u' := by
      intro k u hu
      induction hu with
      | root h =>
        have := hd.only _ _ h
        subst this
        rw [hd.root] at h; simp at h
        exact ⟨[], by rw [h]⟩
      | child _ _ ih =>
        obtain ⟨u', rfl⟩ := ih
        exact ⟨u' ++ _, List.cons_append ..⟩
    obtain ⟨u', rfl⟩ := hcons hu
    have := hinj u' (w ++ [ch]) (hpaths k u' hu) hin heq
    rw [this]; rfl
  · intro ch hch
    refine coder_schar n ch ?_
    rcases hlast with h | h | h
    · exact Or.inl h
    · exact Or.inr (Or.inl h)
    · exact Or.inr (Or.inr (h ch hch))

/-- A hash that satisfies the hypotheses (injective on everything). -/
example : let H : Roller := ⟨List UInt8, List UInt8, [], fun s c => s ++ [c], id⟩
    (∀ a b : UInt8, H.hash [a] = H.hash [b] → a = b) ∧ ∀ u v, H.hash (0 :: u) = H.hash (0 :: v) → u = v := by
  have key : ∀ (s i : List UInt8), s.foldl (fun s c => s ++ [c]) i = i ++ s := by
    intro s; induction s with
    | nil => simp
    | cons a s ih => intro i; simp [ih]
  refine ⟨?_, ?_⟩
  · intro a b h; simpa [Roller.hash] using h
  · intro u v h; simpa [Roller.hash, key] using h

/-- **C11 (partial).** A `dict_size` larger than the text is harmless. -/
theorem lz78_dict_size_partial (t : PtrTrie) (n : CoderName) (dms : Nat) (text : List UInt8)
    (hlen : text.length + 1 < 2 ^ 32 - 1) (hdms : text.length + 1 < dms)
    (hlast : n = .bit ∨ n = .ascii ∨ ∀ ch, text.getLast? = some ch → ch.toNat < 128) :
    ∃ bytes, lz78Compress t.impl n.coder dms text = .ok bytes ∧ lz78Decompress n.coder bytes = .ok text := by
  obtain ⟨R, sim, rst⟩ := t.exists_sim
  refine lz78_roundtrip sim (by cases t <;> rfl) n.lawful dms text (fun _ _ _ _ _ _ _ _ => trivial) ?_ hlen (Or.inr hdms)
  intro ch hch
  refine coder_schar n ch ?_
  rcases hlast with h | h | h
  · exact Or.inl h
  · exact Or.inr (Or.inl h)
  · exact Or.inr (Or.inr (h ch hch))

/-- **C11 (negation).** `dict_size = 3` on `abccd`: whatever the coder's ranges, the decoder resolves a reference
made after the reset in the dictionary from before it: with `ascii` (which ignores ranges) it prints `abcad`. -/
theorem lz78_dict_size_broken (t : PtrTrie) : ∃ bytes, lz78Compress t.impl asciiCoder 3 [97, 98, 99, 99, 100] = .ok bytes ∧
    lz78Decompress asciiCoder bytes = .ok [97, 98, 99, 97, 100] := by
  have h : (let s := t.impl.addRoot (t.impl.clear t.impl.empty) 0
      let (s, root) := t.impl.getRoot s 0
      lz78Loop t.impl 3 [97, 98, 99, 99, 100] s root root 0 0) =
        .ok [.tok (.range 0 0) 0, .tok .literal 97, .tok (.range 0 1) 0, .tok .literal 98,
             .tok (.range 0 0) 0, .tok .literal 99, .tok (.range 0 1) 1, .tok .literal 100] := by
    cases t <;> rfl
  have hr : ∀ a b v rest, v < 10 → asciiCoder.dec (.range a b) (asciiCoder.enc (.range 0 v) v ++ rest) = .ok (v, rest) := by
    intro a b v rest hv
    exact asciiCoder_lawful.dec_enc (.range 0 v) v rest ⟨Nat.zero_le _, Nat.le_refl _, by show v < 2 ^ 64; omega⟩
  have hl : ∀ v rest, v < 256 → asciiCoder.dec .literal (asciiCoder.enc .literal v ++ rest) = .ok (v, rest) := by
    intro v rest hv
    exact asciiCoder_lawful.dec_enc .literal v rest ⟨Nat.zero_le _, by show v ≤ 255; omega, by show 255 < 2 ^ 64; omega⟩
  have he : ∀ a b a' b' v, asciiCoder.enc (.range a b) v = asciiCoder.enc (.range a' b') v := fun _ _ _ _ _ => rfl
  have hne : ∀ a b v rest, (asciiCoder.enc (.range a b) v ++ rest).isEmpty = false := by
    intro a b v rest
    simp [asciiCoder, writeInt]
  refine ⟨BitO.toBytes (asciiCoder.encAll [(.range 0 0, 0), (.literal, 97), (.range 0 0, 0), (.literal, 98),
             (.range 0 0, 0), (.literal, 99), (.range 0 1, 1), (.literal, 100)]), ?_, ?_⟩
  · simp only [lz78Compress]
    simp only at h
    rw [h]
    simp only [UCoder.encEmits, UCoder.encAll, List.flatMap_cons, List.flatMap_nil, he 0 1 0 0]
  · simp only [lz78Decompress, bitsOf_toBytes]
    generalize hf : (asciiCoder.encAll _).length + 1 = fuel
    have hf5 : 5 ≤ fuel := by
      have : (asciiCoder.encAll [(.range 0 0, 0), (.literal, 97), (.range 0 0, 0), (.literal, 98),
             (.range 0 0, 0), (.literal, 99), (.range 0 1, 1), (.literal, 100)]).length ≥ 8 := by
        simp [UCoder.encAll, asciiCoder, writeInt]; omega
      omega
    obtain ⟨g, rfl⟩ : ∃ g, fuel = g + 5 := ⟨fuel - 5, by omega⟩
    simp only [UCoder.encAll, List.flatMap_cons, List.flatMap_nil]
    have step : ∀ f ix lt fc v (ch : UInt8) rest out t, v < 10 →
        lz78Chain (ix ++ [v]) (lt ++ [ch]) ((ix ++ [v]).length + 1) v ch [] = .ok out →
        lz78DecLoop asciiCoder f rest (ix ++ [v]) (lt ++ [ch]) (fc + 1) = .ok t →
        lz78DecLoop asciiCoder (f + 1) (asciiCoder.enc (.range 0 v) v ++ (asciiCoder.enc .literal ch.toNat ++ rest)) ix lt fc
          = .ok (out ++ t) := by
      intro f ix lt fc v ch rest out t hv h1 h2
      rw [lz78DecLoop, hne]
      simp only [Bool.false_eq_true, if_false]
      rw [hr 0 fc v _ hv]; simp only []
      rw [hl _ _ ch.toNat_lt]; simp only []
      rw [Nat.mod_eq_of_lt (by omega : v < 2 ^ 32), UInt8.ofNat_toNat, h1]
      simp only []
      rw [h2]
    exact step (g + 4) [] [] 0 0 97 _ [97] [98, 99, 97, 100] (by omega) rfl
      (step (g + 3) _ _ _ 0 98 _ [98] [99, 97, 100] (by omega) rfl
        (step (g + 2) _ _ _ 0 99 _ [99] [97, 100] (by omega) rfl
          (step (g + 1) _ _ _ 1 100 _ [97, 100] [] (by omega) rfl rfl)))

end Tdc
