import Verif.Model.Judy
import Verif.Props.LZ78
import Verif.Props.LZW

/-!
# C80: `lz78` and `lzw` with the trie `judy`
-/

namespace Tdc

/-- the same trie, but a new node is announced with its number -/
def TrieImpl.renum (T : TrieImpl) : TrieImpl :=
  { T with findOrInsert := fun s p c =>
      match T.findOrInsert s p c with
      | .error e => .error e
      | .ok (s', k, b) => .ok (s', if b then T.size s else k, b) }

theorem renum_ok {T : TrieImpl} {s s' : T.σ} {p k : Nat} {c : UInt8} {b : Bool} (h : T.findOrInsert s p c = .ok (s', k, b)) :
    T.renum.findOrInsert s p c = .ok (s', if b then T.size s else k, b) := by
  unfold TrieImpl.renum
  dsimp only
  rw [h]

/-- The compressors do not look at the number of a new node. -/
theorem lz78Loop_renum (T : TrieImpl) (dms : Nat) : ∀ (text : List UInt8) (s : T.σ) (node parent fc : Nat) (c : UInt8),
    lz78Loop T.renum dms text s node parent fc c = lz78Loop T dms text s node parent fc c
  | [], s, node, parent, fc, c => rfl
  | x :: text, s, node, parent, fc, c => by
    refine (lz78Loop.eq_def T.renum dms (x :: text) s node parent fc c).trans (Eq.trans ?_ (lz78Loop.eq_def T dms (x :: text) s node parent fc c).symm)
    dsimp only
    have e : T.renum.findOrInsert s node x = (match T.findOrInsert s node x with
      | .error e => .error e
      | .ok (s', k, b) => .ok (s', if b then T.size s else k, b)) := rfl
    rw [e]
    cases T.findOrInsert s node x with
    | error e => rfl
    | ok r =>
      obtain ⟨s', k, b⟩ := r
      cases b with
      | true =>
        have h1 := lz78Loop_renum T dms text (T.addRoot (T.clear (T.getRoot s' 0).1) 0) (T.getRoot s' 0).2 (T.getRoot s' 0).2 0 x
        have h2 := lz78Loop_renum T dms text (T.getRoot s' 0).1 (T.getRoot s' 0).2 (T.getRoot s' 0).2 (fc + 1) x
        exact congrArg (fun r : Res (List Emit) => (match r with
          | .error e => .error e
          | .ok es => .ok (Emit.tok (Rng.range 0 fc) node :: Emit.tok Rng.literal x.toNat :: es) : Res (List Emit)))
          (ite_congr (c := T.size (T.getRoot s' 0).1 = dms) rfl (fun _ => h1) (fun _ => h2))
      | false => exact lz78Loop_renum T dms text s' k node fc x

theorem lz78Compress_renum (T : TrieImpl) (c : UCoder) (dms : Nat) (text : List UInt8) : lz78Compress T.renum c dms text = lz78Compress T c dms text := by
  unfold lz78Compress
  have := lz78Loop_renum T dms text (T.getRoot (T.addRoot (T.clear T.empty) 0) 0).1 (T.getRoot (T.addRoot (T.clear T.empty) 0) 0).2
    (T.getRoot (T.addRoot (T.clear T.empty) 0) 0).2 0 0
  exact congrArg (fun r : Res (List Emit) => (match r with
    | .error e => .error e
    | .ok es => match c.encEmits es with
      | .error e => .error e
      | .ok bits => .ok (BitO.toBytes bits) : Res (List UInt8))) this

theorem lzwLoop_renum (T : TrieImpl) (dms : Nat) : ∀ (text : List UInt8) (s : T.σ) (node fc : Nat),
    lzwLoop T.renum dms text s node fc = lzwLoop T dms text s node fc
  | [], s, node, fc => rfl
  | x :: text, s, node, fc => by
    refine (lzwLoop.eq_def T.renum dms (x :: text) s node fc).trans (Eq.trans ?_ (lzwLoop.eq_def T dms (x :: text) s node fc).symm)
    dsimp only
    have e : T.renum.findOrInsert s node x = (match T.findOrInsert s node x with
      | .error e => .error e
      | .ok (s', k, b) => .ok (s', if b then T.size s else k, b)) := rfl
    rw [e]
    cases T.findOrInsert s node x with
    | error e => rfl
    | ok r =>
      obtain ⟨s', k, b⟩ := r
      cases b with
      | true =>
        have h1 := lzwLoop_renum T dms text (lzwReset T (T.getRoot s' x).1) (T.getRoot s' x).2 0
        have h2 := lzwLoop_renum T dms text (T.getRoot s' x).1 (T.getRoot s' x).2 (fc + 1)
        exact congrArg (fun r : Res (List Token) => (match r with
          | .error e => .error e
          | .ok es => .ok ((Rng.range 0 (fc + 256), node) :: es) : Res (List Token)))
          (ite_congr (c := T.size (T.getRoot s' x).1 = dms) rfl (fun _ => h1) (fun _ => h2))
      | false => exact lzwLoop_renum T dms text s' k fc

theorem lzwCompress_renum (T : TrieImpl) (c : UCoder) (dms : Nat) (text : List UInt8) : lzwCompress T.renum c dms text = lzwCompress T c dms text := by
  unfold lzwCompress
  cases text with
  | nil => rfl
  | cons x text =>
    have := lzwLoop_renum T dms text (T.getRoot (lzwReset T T.empty) x).1 (T.getRoot (lzwReset T T.empty) x).2 0
    exact congrArg (fun r : Res (List Token) => (match r with
      | .error e => .error e
      | .ok es => .ok (BitO.toBytes (c.encAll es)) : Res (List UInt8))) this

/-- The key is not that of a root, or that of the root 0 (which is stored with the value 0 and therefore does not count). -/
def JudyOk (d : Dict) (p : Nat) (c : UInt8) : Prop := p = 0 → c ≠ 0 → (none, c) ∉ d

/-- the value stored for the number of a node that is not a root -/
def judyVal : Option Nat → Nat
  | none => 0
  | some k => k + 1

/-- what the array holds -/
def JudyR (s : JudyState) (d : Dict) : Prop := s.size = d.length ∧ ∀ p c, JudyOk d p c → s.dict (p, c) = judyVal (d.find p c)

theorem find_append (d : Dict) (e : Option Nat × UInt8) (p : Nat) (c : UInt8) :
    Dict.find (d ++ [e]) p c = if (d.find p c).isSome then d.find p c else if e = (some p, c) then some d.length else none := by
  unfold Dict.find
  rw [List.findIdx?_append]
  cases h : List.findIdx? (· == (some p, c)) d with
  | some k => simp
  | none =>
    by_cases he : e = (some p, c)
    · subst he; simp [List.findIdx?_cons]
    · simp [List.findIdx?_cons, he]

theorem judyTrie_sim : TrieSim judyTrie.renum (fun s d _ => JudyR s d) JudyOk where
  empty := ⟨rfl, fun p c _ => rfl⟩
  addRoot s d c h hd hc := by
    change JudyState at s
    obtain ⟨h1, h2⟩ := h
    refine ⟨by show s.size + 1 = _; simp [h1], ?_⟩
    intro p b hok
    show s.put (0, c) (s.size % 2 ^ 32) (p, b) = _
    have hnone : (none, c) ≠ ((some p, b) : Option Nat × UInt8) := by simp
    have hfind : d.find p b = none := by
      rw [Dict.find, List.findIdx?_eq_none_iff]
      intro x hx
      obtain ⟨i, hi⟩ := List.mem_iff_getElem?.mp hx
      have := (hd i x hi).1
      rw [beq_eq_false_iff_ne]
      rintro rfl
      simp at this
    rw [find_append, hfind]
    simp only [Option.isSome_none, Bool.false_eq_true, if_false, if_neg hnone, judyVal]
    unfold JudyState.put
    split
    · rename_i he
      simp only [Prod.mk.injEq] at he
      obtain ⟨rfl, rfl⟩ := he
      by_cases hb : b = 0
      · subst hb
        have hd0 : d.length = 0 := by simpa using hc.symm
        rw [h1, hd0]
      · exact absurd (by simp) (hok rfl hb)
    · rw [h2 p b (fun hp hb hm => hok hp hb (by simp [hm])), hfind]
      rfl
  getRoot _ _ _ h _ := ⟨rfl, h⟩
  size s d _ h := h.1
  hit s d p c k h hp hs hok hf := by
    change JudyState at s
    have hv : s.dict (p, c) = k + 1 := by rw [h.2 p c hok, hf]; rfl
    refine ⟨s, ?_, h⟩
    have e : judyTrie.findOrInsert s p c = .ok (s, k, false) := by
      simp only [judyTrie, hv, Nat.add_eq_zero_iff, Nat.one_ne_zero, and_false, if_false, Nat.add_sub_cancel]
    exact renum_ok e
  miss s d p c h hp hs hok hf := by
    change JudyState at s
    have hv : s.dict (p, c) = 0 := by rw [h.2 p c hok, hf]; rfl
    have hsz := h.1
    have hm : (s.size + 1) % 2 ^ 32 = d.length + 1 := by rw [hsz]; apply Nat.mod_eq_of_lt; unfold undefId at hs; omega
    refine ⟨⟨s.put (p, c) (d.length + 1), s.size + 1⟩, ?_, by show s.size + 1 = _; simp [hsz], ?_⟩
    · have e : judyTrie.findOrInsert s p c = .ok (⟨s.put (p, c) (d.length + 1), s.size + 1⟩, d.length + 1, true) := by
        simp only [judyTrie, hv, if_true, hm]
      rw [renum_ok e]
      show Except.ok (_, s.size, true) = _
      rw [hsz]
    · intro q b hok'
      show s.put (p, c) (d.length + 1) (q, b) = _
      have hold : JudyOk d q b := fun hp hb hm => hok' hp hb (by simp [hm])
      rw [find_append]
      unfold JudyState.put
      by_cases he : (q, b) = (p, c)
      · simp only [Prod.mk.injEq] at he
        obtain ⟨rfl, rfl⟩ := he
        simp [hf, judyVal]
      · have he' : ((some p, c) : Option Nat × UInt8) ≠ (some q, b) := by
          intro h; simp only [Prod.mk.injEq, Option.some.injEq] at h; exact he (by simp [h.1, h.2])
        rw [if_neg he, h.2 q b hold, if_neg he']
        cases d.find q b <;> rfl

/-- **C80, lz78.** Every text (shorter than 2^32 - 2 bytes) is reproduced; the last byte must be below 128 for the coders `gamma` and `delta`, as with every trie. -/
theorem lz78_judy_lossless_partial (n : CoderName) (text : List UInt8) (hlen : text.length + 1 < 2 ^ 32 - 1)
    (hlast : n = .bit ∨ n = .ascii ∨ ∀ ch, text.getLast? = some ch → ch.toNat < 128) :
    ∃ bytes, lz78Compress judyTrie n.coder 0 text = .ok bytes ∧ lz78Decompress n.coder bytes = .ok text := by
  rw [← lz78Compress_renum]
  refine lz78_roundtrip judyTrie_sim rfl n.lawful 0 text ?_ ?_ hlen (Or.inl rfl)
  · intro d p w ch hd _ _ hin hp hch hm
    obtain ⟨i, hi⟩ := List.mem_iff_getElem?.mp hm
    have := hd.only i ch hi
    subst this
    rw [hd.root] at hi
    simp at hi
    exact hch hi.symm
  · intro ch hch
    refine coder_schar n ch ?_
    rcases hlast with h | h | h
    · exact Or.inl h
    · exact Or.inr (Or.inl h)
    · exact Or.inr (Or.inr (h ch hch))

/-- **C80, lzw.** Texts without the byte 0 are reproduced. -/
theorem lzw_judy_lossless_partial (n : CoderName) (text : List UInt8) (hlen : text.length + 257 < 2 ^ 32 - 1) (hzero : (0 : UInt8) ∉ text) :
    ∃ bytes, lzwCompress judyTrie n.coder 0 text = .ok bytes ∧ lzwDecompress n.coder 0 bytes = .ok text := by
  rw [← lzwCompress_renum]
  refine lzw_roundtrip judyTrie_sim rfl n.lawful.enc_ne_nil 0 text (lawful_lzw_dec n.lawful) ?_ hlen (Or.inl rfl) (by simp)
  intro d p w ch hd _ hp hin h0
  subst h0
  have := hp.det (.root (hd.roots 0))
  subst this
  exact absurd (hin.subset (by simp)) hzero

/-- the number under which the root of a character is stored -/
theorem judy_root_value (c : UInt8) : JudyState.dict (lzwReset judyTrie judyTrie.empty) (0, c) = c.toNat := by
  have h : ∀ n : Fin 256, JudyState.dict (lzwReset judyTrie judyTrie.empty) (0, UInt8.ofNat n.val) = n.val := by decide +kernel
  have := h ⟨c.toNat, c.toNat_lt⟩
  rwa [UInt8.ofNat_toNat] at this

theorem judy_hit (s : JudyState) (p : Nat) (c : UInt8) (h : s.dict (p, c) ≠ 0) : judyTrie.findOrInsert s p c = .ok (s, s.dict (p, c) - 1, false) := by
  show (if s.dict (p, c) = 0 then _ else _ : Res (JudyState × Nat × Bool)) = _
  rw [if_neg h]
  rfl

theorem judy_root (s : JudyState) (c : UInt8) : judyTrie.getRoot s c = (s, c.toNat) := rfl

theorem lzwCompress_two (T : TrieImpl) (c : UCoder) {x y : UInt8} {k node : Nat} {s s' : T.σ}
    (hr : T.getRoot (lzwReset T T.empty) x = (s, node)) (h : T.findOrInsert s node y = .ok (s', k, false)) :
    lzwCompress T c 0 [x, y] = .ok (BitO.toBytes (c.encAll [(Rng.range 0 256, k)])) := by
  simp only [lzwCompress, lzwLoop, hr, h]

theorem lzwCompress_one (T : TrieImpl) (c : UCoder) (x : UInt8) :
    lzwCompress T c 0 [x] = .ok (BitO.toBytes (c.encAll [(Rng.range 0 256, (T.getRoot (lzwReset T T.empty) x).2)])) := by
  simp only [lzwCompress, lzwLoop]

/-- **C80 is false for lzw and the byte 0.** A root is stored with its number, the other nodes with their number plus 1; the child `c` of the root 0 has the
key of the root `c`. The text `0, c` becomes the single character `c - 1`, for every other `c` and every coder. -/
theorem lzw_judy_broken (n : CoderName) (c : UInt8) (hc : c ≠ 0) :
    ∃ bytes, lzwCompress judyTrie n.coder 0 [0, c] = .ok bytes ∧ lzwDecompress n.coder 0 bytes = .ok [c - 1] ∧ [c - 1] ≠ [0, c] := by
  obtain ⟨bytes, h1, h2⟩ := lzw_lossless .binary n [c - 1] (by simp)
  refine ⟨bytes, ?_, h2, by simp⟩
  have hpos : 0 < c.toNat := by
    rcases Nat.eq_zero_or_pos c.toNat with h | h
    · exact absurd (UInt8.toNat_inj.mp (by simpa using h)) hc
    · exact h
  have hsub : (c - 1).toNat = c.toNat - 1 := by
    have := UInt8.toNat_sub_of_le c 1 (by rw [UInt8.le_iff_toNat_le]; exact hpos)
    simpa using this
  have e : judyTrie.findOrInsert (lzwReset judyTrie judyTrie.empty) 0 c = .ok (lzwReset judyTrie judyTrie.empty, c.toNat - 1, false) := by
    have h := judy_hit (lzwReset judyTrie judyTrie.empty) 0 c (by rw [judy_root_value c]; omega)
    rwa [judy_root_value c] at h
  rw [← h1]
  have e2 := lzwCompress_two judyTrie n.coder (judy_root _ 0) e
  have e1 : lzwCompress PtrTrie.binary.impl n.coder 0 [c - 1] = _ := lzwCompress_one PtrTrie.binary.impl n.coder (c - 1)
  rw [e1, e2]
  have er : (PtrTrie.binary.impl.getRoot (lzwReset PtrTrie.binary.impl PtrTrie.binary.impl.empty) (c - 1)).2 = c.toNat - 1 := hsub
  rw [er]

/-- the codes of a run -/
def judyCodes (text : List UInt8) : List Nat :=
  match text with
  | [] => []
  | x :: text =>
    match lzwLoop judyTrie 0 text (lzwReset judyTrie judyTrie.empty) x.toNat 0 with
    | .ok es => es.map (·.2)
    | .error _ => []

/-- The hypotheses of `lz78_judy_lossless_partial` and `lzw_judy_lossless_partial` on a text, and the codes of a run with the trie: "aababa". -/
example : (0 : UInt8) ∉ [97, 97, 98, 97, 98, 97] := by decide
example : judyCodes [97, 97, 98, 97, 98, 97] = [97, 97, 98, 257, 97] := by decide +kernel

end Tdc
