import Verif.Lemmas.Rolling
import Verif.Props.LZ78
import Verif.Props.LZW

/-!
# C63: LZ78 and LZW with `RollingTrie` and the rolling hash functions of the code

`RollingTrie` identifies a node by the hash value of its path.  For the hash functions `zbackup` (the default) and
`wordpack` this decides for which texts the compressors are lossless.
-/

namespace Tdc.Rolling

/-! ## Short texts -/

theorem tri_le_seven {n : Nat} (h : tri n ≤ 70) : n ≤ 7 := by
  by_contra hc
  obtain ⟨k, rfl⟩ : ∃ k, n = k + 8 := ⟨n - 8, by omega⟩
  simp only [tri, Nat.mul_add, Nat.add_mul] at h
  omega

theorem tri_le_six {n : Nat} (h : tri n ≤ 54) : n ≤ 6 := by
  by_contra hc
  obtain ⟨k, rfl⟩ : ∃ k, n = k + 7 := ⟨n - 7, by omega⟩
  simp only [tri, Nat.mul_add, Nat.add_mul] at h
  omega

/-- The state of a rolling trie after adding the root of LZ78. -/
theorem rolling_root (H : Roller) : RollR H ((rollingTrie H).addRoot ((rollingTrie H).clear (rollingTrie H).empty) 0)
    [(none, 0)] none := by
  refine ⟨Dict.WF.nil.addRoot (c := 0) rfl, rfl, ?_, fun _ => rfl, by simp⟩
  intro k w hw
  have hk := hw.lt
  simp at hk
  subst hk
  have := hw.det (.root (c := 0) rfl)
  subst this
  rfl

/-- A rolling hash under which strings are told apart, if they have at most seven characters, all of them in `P`. -/
def SevenOk (H : Roller) (P : UInt8 → Prop) : Prop :=
  ∀ u v : List UInt8, u.length ≤ 7 → v.length ≤ 7 → (∀ c ∈ u, P c) → (∀ c ∈ v, P c) → H.hash u = H.hash v → u = v

theorem lz78_rolling_short {H : Roller} {P : UInt8 → Prop} (hH : SevenOk H P) (h0 : ∀ s, H.hash (0 :: s) = H.hash s)
    (n : CoderName) (text : List UInt8) (hlen : text.length < 36) (hP : ∀ c ∈ text, P c)
    (hlast : n = .bit ∨ n = .ascii ∨ ∀ ch, text.getLast? = some ch → ch.toNat < 128) :
    ∃ bytes, lz78Compress (rollingTrie H) n.coder 0 text = .ok bytes ∧ lz78Decompress n.coder bytes = .ok text := by
  refine lz78_roundtrip_core (rollingTrie_step H) (rolling_root H) n.lawful 0 text ?_ ?_
    (by unfold undefId; omega) (Or.inl rfl)
  · intro d p w ch hd hpaths hp hin htri k u v hu hv heq
    have hv' := hv.det hp
    subst hv'
    have hcons : ∀ {k : Nat} {u : List UInt8}, Path d k u → ∃ u', u = 0 :: u' := by
      intro k u hu
      induction hu with
      | root h =>
        have := hd.only _ _ h
        subst this
        rw [hd.root] at h; simp at h
        exact ⟨[], by rw [h]⟩
      | child _ _ ih =>
        obtain ⟨u', rfl⟩ := ih
        exact ⟨u' ++ _, List.cons_append ..⟩
    obtain ⟨u', rfl⟩ := hcons hu
    obtain ⟨i1, i2⟩ := hpaths k u' hu
    rw [h0, List.cons_append, h0] at heq
    have := hH u' (w ++ [ch]) (tri_le_seven (by omega)) (by
      have := tri_le_seven (n := w.length + 1) (by omega)
      simpa using this) (fun c hc => hP c (i1.subset hc)) (fun c hc => hP c (hin.subset hc)) heq
    rw [this]; rfl
  · intro ch hch
    refine coder_schar n ch ?_
    rcases hlast with h | h | h
    · exact Or.inl h
    · exact Or.inr (Or.inl h)
    · exact Or.inr (Or.inr (h ch hch))

/-- **C63 (LZ78, `wordpack`, partial).** Texts of at most 35 non-zero bytes are reproduced.  Missing: zero bytes
(`lz78_rolling_zero_lost`) and longer texts (`lz78_rolling_collision`). -/
theorem lz78_wordpack_lossless_partial (n : CoderName) (text : List UInt8) (hlen : text.length < 36) (hzero : (0 : UInt8) ∉ text)
    (hlast : n = .bit ∨ n = .ascii ∨ ∀ ch, text.getLast? = some ch → ch.toNat < 128) :
    ∃ bytes, lz78Compress (rollingTrie wordpack) n.coder 0 text = .ok bytes ∧ lz78Decompress n.coder bytes = .ok text :=
  lz78_rolling_short (P := fun c => c ≠ 0)
    (fun _ _ h1 h2 h3 h4 h => wordpack_inj h1 h2 (fun hc => h3 _ hc rfl) (fun hc => h4 _ hc rfl) h)
    wordpack_zero n text hlen (fun c hc h => hzero (h ▸ hc)) hlast

/-- **C63 (LZ78, `zbackup`, partial).** Texts of at most 35 bytes other than 0 and 255 are reproduced.  Missing: zero bytes
(`lz78_rolling_zero_lost`), bytes 255 (`lz78_zbackup_255_lost`) and longer texts (`lz78_rolling_collision`). -/
theorem lz78_zbackup_lossless_partial (n : CoderName) (text : List UInt8) (hlen : text.length < 36) (hzero : (0 : UInt8) ∉ text)
    (h255 : (255 : UInt8) ∉ text)
    (hlast : n = .bit ∨ n = .ascii ∨ ∀ ch, text.getLast? = some ch → ch.toNat < 128) :
    ∃ bytes, lz78Compress (rollingTrie zbackup) n.coder 0 text = .ok bytes ∧ lz78Decompress n.coder bytes = .ok text :=
  lz78_rolling_short (P := fun c => c ≠ 0 ∧ c ≠ 255)
    (fun _ _ h1 h2 h3 h4 h => zbackup_inj h1 h2 (fun hc => (h3 _ hc).1 rfl) (fun hc => (h4 _ hc).1 rfl)
      (fun hc => (h3 _ hc).2 rfl) (fun hc => (h4 _ hc).2 rfl) h)
    zbackup_zero n text hlen (fun c hc => ⟨fun h => hzero (h ▸ hc), fun h => h255 (h ▸ hc)⟩) hlast

/-- The root nodes of LZW have different hash values. -/
theorem wordpack_roots (a b : UInt8) (h : wordpack.hash [a] = wordpack.hash [b]) : a = b := by
  obtain ⟨n, n1, n2⟩ := wordpack_hash [a]
  obtain ⟨m, m1, m2⟩ := wordpack_hash [b]
  rw [n1, m1] at h
  have h : n = m := h
  have h1 := sc_bound a
  have h2 := sc_bound b
  simp only [List.reverse_singleton, rval] at n2 m2
  exact sc_inj (by omega)

/-- Strings of at most seven characters without zero byte, or single characters. -/
theorem wordpack_inj_root {u v : List UInt8} (hu : u.length ≤ 7) (hv : v.length ≤ 7) (zu : 0 ∉ u ∨ u = [0]) (zv : 0 ∉ v) (hv0 : v ≠ [])
    (h : wordpack.hash u = wordpack.hash v) : u = v := by
  rcases zu with zu | rfl
  · exact wordpack_inj hu hv zu zv h
  · rw [wordpack_zero] at h
    exact absurd (wordpack_inj (u := []) (by simp) hv (by simp) zv h).symm hv0

/-- **C63 (LZW, `wordpack`, partial).** Texts of at most 27 non-zero bytes are reproduced.  Missing: zero bytes
(`lzw_wordpack_zero`), longer texts. -/
theorem lzw_wordpack_lossless_partial (n : CoderName) (text : List UInt8) (hlen : text.length < 28) (hzero : (0 : UInt8) ∉ text) :
    ∃ bytes, lzwCompress (rollingTrie wordpack) n.coder 0 text = .ok bytes ∧ lzwDecompress n.coder 0 bytes = .ok text := by
  refine lzw_roundtrip_len (rollingTrie_sim wordpack wordpack_roots) rfl n.lawful.enc_ne_nil 0 text (lawful_lzw_dec n.lawful)
    ?_ (by unfold undefId; omega) (Or.inl rfl) (by simp)
  intro d p w ch hd hpaths hp hin htri k u v hu hv heq
  have hv' := hv.det hp
  subst hv'
  obtain ⟨i1, i2⟩ := hpaths k u hu
  have hul : u.length ≤ 7 := by
    have := tri_le_six (n := u.length - 1) (by omega)
    omega
  have hwl : (v ++ [ch]).length ≤ 7 := by
    have := tri_le_six (n := v.length) (by omega)
    simpa using this
  refine wordpack_inj_root hul hwl ?_ (fun h => hzero (hin.subset h)) (by simp) heq
  rcases i2 with i2 | i2
  · exact Or.inl (fun h => hzero (i2.subset h))
  · obtain ⟨a, rfl⟩ := List.length_eq_one_iff.mp i2
    by_cases ha : a = 0
    · exact Or.inr (by rw [ha])
    · exact Or.inl (by simpa using fun h => ha h.symm)

/-! ## Texts that are not reproduced -/

/-- **C63 (negation, `zbackup`).** The hash value of byte 255 is that of the root: a text consisting of this byte is lost. -/
theorem lz78_zbackup_255_lost (n : CoderName) :
    ∃ bytes, lz78Compress (rollingTrie zbackup) n.coder 0 [255] = .ok bytes ∧ lz78Decompress n.coder bytes = .ok [] := by
  refine ⟨BitO.toBytes [], by cases n <;> decide +kernel, ?_⟩
  simp only [lz78Decompress, bitsOf_toBytes]; rfl

/-- **C63 (negation).** With either hash function a text consisting of a zero byte is lost. -/
theorem lz78_rolling_zero_lost (H : Roller) (hH : H = zbackup ∨ H = wordpack) (n : CoderName) :
    ∃ bytes, lz78Compress (rollingTrie H) n.coder 0 [0] = .ok bytes ∧ lz78Decompress n.coder bytes = .ok [] := by
  refine ⟨BitO.toBytes [], ?_, ?_⟩
  · rcases hH with rfl | rfl <;> cases n <;> decide +kernel
  · simp only [lz78Decompress, bitsOf_toBytes]; rfl

/-- The root nodes 0 and 255 of LZW coincide under `zbackup`: the dictionary starts with 255 nodes instead of 256, and
every new node gets the number of another one. -/
theorem lzw_zbackup_roots : (rollingTrie zbackup).size (lzwReset (rollingTrie zbackup) (rollingTrie zbackup).empty) = 255 := by
  decide +kernel

/-- The text `abab`. -/
def abab : List UInt8 := [97, 98, 97, 98]

/-- **C63 (negation, LZW with `zbackup`, the default).** `abab` comes back as `ab` followed by byte 255, with every coder. -/
theorem lzw_zbackup_lossy (n : CoderName) :
    ∃ bytes, lzwCompress (rollingTrie zbackup) n.coder 0 abab = .ok bytes ∧ lzwDecompress n.coder 0 bytes = .ok [97, 98, 255] := by
  have h : ∀ n : CoderName, (match lzwCompress (rollingTrie zbackup) n.coder 0 abab with
      | .ok bytes => decide (lzwDecompress n.coder 0 bytes = .ok [97, 98, 255])
      | .error _ => false) = true := by
    intro n; cases n <;> decide +kernel
  have h := h n
  cases hc : lzwCompress (rollingTrie zbackup) n.coder 0 abab with
  | error e => rw [hc] at h; simp at h
  | ok bytes => rw [hc] at h; exact ⟨bytes, rfl, of_decide_eq_true h⟩

/-- **C63 (negation, LZW with `wordpack`).** A zero byte is lost: `NUL a` comes back as `a`, with every coder. -/
theorem lzw_wordpack_zero (n : CoderName) :
    ∃ bytes, lzwCompress (rollingTrie wordpack) n.coder 0 [0, 97] = .ok bytes ∧ lzwDecompress n.coder 0 bytes = .ok [97] := by
  have h : ∀ n : CoderName, (match lzwCompress (rollingTrie wordpack) n.coder 0 [0, 97] with
      | .ok bytes => decide (lzwDecompress n.coder 0 bytes = .ok [97])
      | .error _ => false) = true := by
    intro n; cases n <;> decide +kernel
  have h := h n
  cases hc : lzwCompress (rollingTrie wordpack) n.coder 0 [0, 97] with
  | error e => rw [hc] at h; simp at h
  | ok bytes => rw [hc] at h; exact ⟨bytes, rfl, of_decide_eq_true h⟩

/-! ### Collisions -/

/-- Two strings of ten letters (the differences are the coefficients of `(x-1)^8 (x+1)`, and `256^8 = 2^64`). -/
def colU : List UInt8 := [66, 65, 85, 65, 79, 79, 65, 85, 65, 66]
def colV : List UInt8 := [65, 72, 65, 93, 65, 65, 93, 65, 72, 65]

theorem rval_append (a b : List UInt8) : rval (a ++ b) = rval a + 257 ^ a.length * rval b := by
  induction a with
  | nil => simp [rval]
  | cons c a ih => simp only [List.cons_append, rval, ih, List.length_cons, pow_succ]; ring

theorem rval_col : rval colU.reverse = rval colV.reverse + 2 ^ 64 * 258 := by decide +kernel

theorem rval_context (p q : List UInt8) : ∃ k, rval (p ++ colU ++ q).reverse = rval (p ++ colV ++ q).reverse + 2 ^ 64 * k := by
  refine ⟨257 ^ q.length * 258, ?_⟩
  simp only [List.reverse_append, rval_append, rval_col, List.length_reverse]
  have : colU.length = colV.length := rfl
  rw [this]
  ring

/-- The hash values of the two strings agree in every context, under both hash functions. -/
theorem rolling_collision (p q : List UInt8) : wordpack.hash (p ++ colU ++ q) = wordpack.hash (p ++ colV ++ q) ∧
    zbackup.hash (p ++ colU ++ q) = zbackup.hash (p ++ colV ++ q) := by
  obtain ⟨k, hk⟩ := rval_context p q
  constructor
  · obtain ⟨n, n1, n2⟩ := wordpack_hash (p ++ colU ++ q)
    obtain ⟨m, m1, m2⟩ := wordpack_hash (p ++ colV ++ q)
    rw [n1, m1]
    show n = m
    omega
  · obtain ⟨n, n1, n2⟩ := zbackup_hash (p ++ colU ++ q)
    obtain ⟨m, m1, m2⟩ := zbackup_hash (p ++ colV ++ q)
    rw [n1, m1]
    show n % (2 ^ 64 - 1) = m % (2 ^ 64 - 1)
    have : n = m := by omega
    rw [this]

/-- Two strings of eight non-zero bytes with the same hash value: the bound of `SevenOk` is sharp. -/
theorem eight_collide : wordpack.hash [124, 29, 1, 71, 1, 29, 1, 2] = wordpack.hash [131, 1, 57, 1, 57, 1, 9, 1] ∧
    zbackup.hash [124, 29, 1, 71, 1, 29, 1, 2] = zbackup.hash [131, 1, 57, 1, 57, 1, 9, 1] :=
  ⟨(Nat.eq_of_beq_eq_true (by decide +kernel) : @Eq Nat (wordpack.hash [124, 29, 1, 71, 1, 29, 1, 2]) (wordpack.hash [131, 1, 57, 1, 57, 1, 9, 1])),
    (Nat.eq_of_beq_eq_true (by decide +kernel) : @Eq Nat (zbackup.hash [124, 29, 1, 71, 1, 29, 1, 2]) (zbackup.hash [131, 1, 57, 1, 57, 1, 9, 1]))⟩

/-- The prefixes of `colU`, the prefixes of `colV`, and `colV` followed by `Z`. -/
def colText : List UInt8 :=
  (List.range 10).flatMap (fun i => colU.take (i + 1)) ++ (List.range 9).flatMap (fun i => colV.take (i + 1)) ++ colV ++ [90]

/-- What comes back: `colU` instead of the last `colV`. -/
def colBack : List UInt8 :=
  (List.range 10).flatMap (fun i => colU.take (i + 1)) ++ (List.range 9).flatMap (fun i => colV.take (i + 1)) ++ colU ++ [90]

/-- **C63 (negation).** A text of 111 letters that is not reproduced, with either hash function and every coder. -/
theorem lz78_rolling_collision (H : Roller) (hH : H = zbackup ∨ H = wordpack) (n : CoderName) :
    ∃ bytes, lz78Compress (rollingTrie H) n.coder 0 colText = .ok bytes ∧ lz78Decompress n.coder bytes = .ok colBack := by
  have key : ∀ n : CoderName, (match lz78Compress (rollingTrie zbackup) n.coder 0 colText, lz78Compress (rollingTrie wordpack) n.coder 0 colText with
      | .ok bytes, .ok bytes' => decide (bytes = bytes' ∧ lz78Decompress n.coder bytes = .ok colBack)
      | _, _ => false) = true := by
    intro n; cases n <;> decide +kernel
  have h := key n
  cases h1 : lz78Compress (rollingTrie zbackup) n.coder 0 colText with
  | error e => rw [h1] at h; simp at h
  | ok b1 =>
    cases h2 : lz78Compress (rollingTrie wordpack) n.coder 0 colText with
    | error e => rw [h1, h2] at h; simp at h
    | ok b2 =>
      rw [h1, h2] at h
      obtain ⟨e1, e2⟩ := of_decide_eq_true h
      subst e1
      rcases hH with rfl | rfl
      · exact ⟨_, h1, e2⟩
      · exact ⟨_, h2, e2⟩

example : colText ≠ colBack := by decide +kernel

/-! ## Instances -/

/-- Texts that meet the hypotheses. -/
example : ([97, 98, 97, 98, 97, 98, 97, 98, 97, 97, 97] : List UInt8).length < 28 ∧ (0 : UInt8) ∉ ([97, 98, 97, 98, 97, 98, 97, 98, 97, 97, 97] : List UInt8) ∧
    (255 : UInt8) ∉ ([97, 98, 97, 98, 97, 98, 97, 98, 97, 97, 97] : List UInt8) := by decide

end Tdc.Rolling
