import Verif.Lemmas.LZW
import Verif.Props.BitIO

/-!
# Property C12: LZW

`lzwCompress T c dms text` are the bytes written by `lzw(coder = c, lz78trie = T, dict_size = dms)`.
-/

namespace Tdc

theorem lawful_lzw_dec {c : UCoder} (hc : c.Lawful) (a b v : Nat) (rest : List Bool) (h : LzwPair 0 a b) (hv : v ≤ b + 256)
    (hb : b + 256 < undefId) :
    c.dec (.range 0 (a + 256)) (c.enc (.range 0 (b + 256)) v ++ rest) = .ok (v, rest) := by
  have h' : a = b := h
  subst h'
  exact hc.dec_enc _ _ _ ⟨Nat.zero_le _, hv, by show a + 256 < 2 ^ 64; simp [undefId] at hb; omega⟩

/-- **C12 (unlimited dictionary).** `lzw` with any universal coder and any of the tries `binary`, `binary_sorted`,
`ternary` reproduces every text (shorter than 2^32 - 258 bytes). -/
theorem lzw_lossless (t : PtrTrie) (n : CoderName) (text : List UInt8) (hlen : text.length + 257 < 2 ^ 32 - 1) :
    ∃ bytes, lzwCompress t.impl n.coder 0 text = .ok bytes ∧ lzwDecompress n.coder 0 bytes = .ok text := by
  obtain ⟨R, sim, rst⟩ := t.exists_sim
  exact lzw_roundtrip sim (by cases t <;> rfl) n.lawful.enc_ne_nil 0 text (lawful_lzw_dec n.lawful)
    (fun _ _ _ _ _ _ _ _ => trivial) hlen (Or.inl rfl) (by simp)

theorem lzw_dec_limited (n : CoderName) (dms : Nat) (h : n ≠ .bit ∨ dms ≤ 511) (h0 : dms ≠ 0) (a b v : Nat) (rest : List Bool)
    (hp : LzwPair dms a b) (hv : v ≤ b + 256) (hb : b + 256 < undefId) :
    n.coder.dec (.range 0 (a + 256)) (n.coder.enc (.range 0 (b + 256)) v ++ rest) = .ok (v, rest) := by
  have hHas : (Rng.range 0 (b + 256)).Has v := ⟨Nat.zero_le _, hv, by show b + 256 < 2 ^ 64; simp [undefId] at hb; omega⟩
  have hself := n.lawful.dec_enc _ _ rest hHas
  by_cases hn : n = .bit
  · subst hn
    have hd : dms ≤ 511 := by rcases h with h | h; exact absurd rfl h; exact h
    unfold LzwPair at hp
    rw [if_neg h0] at hp
    have hbits : ∀ x, 256 ≤ x → x ≤ 511 → bitsFor x = 9 := by
      intro x h1 h2
      have h3 := (bitsFor_exact x 9 (by omega)).mpr ⟨by omega, by omega⟩
      have h4 := mt (bitsFor_exact x 8 (by omega)).mp (by omega)
      omega
    have e : bitCoder.dec (.range 0 (a + 256)) = bitCoder.dec (.range 0 (b + 256)) := by
      funext bs
      simp only [bitCoder, Rng.max, Rng.min, Nat.sub_zero]
      rw [hbits _ (by omega) (by omega), hbits _ (by omega) (by omega)]
    show bitCoder.dec _ _ = _
    rw [e]; exact hself
  · rw [(dec_range_free n hn 0 (a + 256) 0 (b + 256)).1]; exact hself

/-- **C12 (bounded dictionary, partial).** With `257 ≤ dict_size` the text is reproduced if the coder ignores ranges
(`ascii`, `gamma`, `delta`, `ternary`) or `dict_size ≤ 511`. Both restrictions are necessary: see
`lzw_small_dict_ub` and `lzw_bit_512_broken`. -/
theorem lzw_dict_size_partial (t : PtrTrie) (n : CoderName) (dms : Nat) (text : List UInt8)
    (hlen : text.length + 257 < 2 ^ 32 - 1) (hdms : 257 ≤ dms ∧ dms ≤ 2 ^ 32 - 1) (hn : n ≠ .bit ∨ dms ≤ 511) :
    ∃ bytes, lzwCompress t.impl n.coder dms text = .ok bytes ∧ lzwDecompress n.coder dms bytes = .ok text := by
  obtain ⟨R, sim, rst⟩ := t.exists_sim
  exact lzw_roundtrip sim (by cases t <;> rfl) n.lawful.enc_ne_nil dms text (lzw_dec_limited n dms hn (by omega))
    (fun _ _ _ _ _ _ _ _ => trivial) hlen (Or.inr hdms) (fun _ => rst)

/-- **C12 (hash tries, partial).** With `HashTrie`/`ExtHashTrie` and an unlimited dictionary, texts without zero bytes are
reproduced. -/
theorem lzw_hash_lossless_partial (clears : Bool) (n : CoderName) (text : List UInt8)
    (hlen : text.length + 257 < 2 ^ 32 - 1) (hzero : (0 : UInt8) ∉ text) :
    ∃ bytes, lzwCompress (hashTrie clears) n.coder 0 text = .ok bytes ∧ lzwDecompress n.coder 0 bytes = .ok text := by
  refine lzw_roundtrip (hashTrie_sim clears) (by cases clears <;> rfl) n.lawful.enc_ne_nil 0 text (lawful_lzw_dec n.lawful)
    ?_ hlen (Or.inl rfl) (by simp)
  intro d p w ch hd _ hp hin h0
  subst h0
  have := hp.det (.root (hd.roots 0))
  subst this
  exact absurd (hin.subset (by simp)) hzero

/-- **C12 (rolling hash trie, partial).** With `RollingTrie`, a text is reproduced if the hash has no collision
among single bytes and substrings of the text. -/
theorem lzw_rolling_lossless_partial (H : Roller) (n : CoderName) (text : List UInt8)
    (hlen : text.length + 257 < 2 ^ 32 - 1)
    (hinj : ∀ u v, (u <:+: text ∨ u.length = 1) → (v <:+: text ∨ v.length = 1) → H.hash u = H.hash v → u = v) :
    ∃ bytes, lzwCompress (rollingTrie H) n.coder 0 text = .ok bytes ∧ lzwDecompress n.coder 0 bytes = .ok text := by
  refine lzw_roundtrip (rollingTrie_sim H ?_) rfl n.lawful.enc_ne_nil 0 text (lawful_lzw_dec n.lawful)
    ?_ hlen (Or.inl rfl) (by simp)
  · intro a b h
    simpa using hinj [a] [b] (Or.inr rfl) (Or.inr rfl) h
  · intro d p w ch hd hpaths hp hin k u v hu hv heq
    have hv' := hv.det hp
    subst hv'
    exact hinj _ _ (hpaths k u hu) (Or.inl hin) heq

/-- **C12 (negation).** Every `dict_size` between 1 and 256 makes the decompressor run into undefined behaviour on some
text, with every coder: the limit is used as "no parent" marker but is also a valid code. -/
theorem lzw_small_dict_ub (t : PtrTrie) (n : CoderName) (dms : Nat) (h1 : 1 ≤ dms) (h2 : dms ≤ 256) :
    ∃ text bytes, text.length ≤ 3 ∧ lzwCompress t.impl n.coder dms text = .ok bytes ∧
      lzwDecompress n.coder dms bytes = .error .ub := by
  obtain ⟨R, sim, rst⟩ := t.exists_sim
  have hcl : t.impl.clear t.impl.empty = t.impl.empty := by cases t <;> rfl
  have hs : lzwReset t.impl t.impl.empty = t.impl.addRoots t.impl.empty 256 := by
    simp only [lzwReset, hcl, TrieImpl.addRoots]
  have hR0 := sim.addRoots _ sim.empty 256 (by omega)
  have hroots : (lzwRoots dms).length = 256 := by simp [lzwRoots]
  have hget : ∀ k, k < 256 → vget (lzwRoots dms) k = .ok (dms, UInt8.ofNat k) := by
    intro k hk
    refine vget_some ?_
    simp [lzwRoots, hk]
  have hnorm : (if (lzwRoots dms).length = dms then (lzwRoots dms, 0) else (lzwRoots dms, 0)) = (lzwRoots dms, 0) := by
    split <;> rfl
  have hne : ∀ r v rest, r.Has v → (n.coder.enc r v ++ rest).isEmpty = false := by
    intro r v rest h
    cases hx : n.coder.enc r v with
    | nil => exact absurd hx (n.lawful.enc_ne_nil r v h)
    | cons a b => rfl
  by_cases hd : dms ≤ 255
  · have hb : (UInt8.ofNat dms).toNat = dms := by rw [UInt8.toNat_ofNat']; omega
    obtain ⟨h3, h4⟩ := sim.getRoot _ _ (UInt8.ofNat dms) hR0 (rootDict_root _)
    have h3' : (t.impl.getRoot (t.impl.addRoots t.impl.empty 256) (UInt8.ofNat dms)).2 = dms := h3.trans hb
    refine ⟨[UInt8.ofNat dms], BitO.toBytes (n.coder.encAll [(.range 0 256, dms)]), by simp, ?_, ?_⟩
    · simp only [lzwCompress, hs, h3', lzwLoop]
    · have hHas : (Rng.range 0 256).Has dms := ⟨Nat.zero_le _, h2, by show (256 : Nat) < 2 ^ 64; omega⟩
      simp only [lzwDecompress, bitsOf_toBytes, UCoder.encAll, List.flatMap_cons, List.flatMap_nil]
      rw [if_neg (by omega), lzwDecLoop]
      simp only [hnorm, hne _ _ _ hHas, Bool.false_eq_true, if_false, Nat.zero_add]
      rw [n.lawful.dec_enc _ _ _ hHas]
      have e1 : dms % 2 ^ 32 = dms := Nat.mod_eq_of_lt (by omega)
      have e2 : lzwStep dms (lzwRoots dms) dms dms = .error .ub := by
        unfold lzwStep
        rw [hroots, if_neg (by omega), if_neg (by omega)]
        simp [lzwRebuild, lzwFront]
      simp only [e1, e2]
  · have hd : dms = 256 := by omega
    subst hd
    obtain ⟨h3, h4⟩ := sim.getRoot _ _ 97 hR0 (rootDict_root _)
    obtain ⟨s1, e1, e2⟩ := sim.miss _ _ 97 97 h4 (by rw [rootDict_len]; omega) (by rw [rootDict_len]; decide) trivial (rootDict_find _ _)
    have hd1 := lzwDict_roots.addChild (p := 97) (c := 97) (by rw [rootDict_len]; omega) (rootDict_find _ _)
    obtain ⟨h5, h6⟩ := sim.getRoot _ _ 97 e2 (hd1.roots 97)
    have hsz := sim.size _ _ _ h6
    rw [List.length_append, rootDict_len] at hsz
    have hf : Dict.find (rootDict 256 ++ [(some 97, 97)]) 97 97 = some 256 := by
      refine Dict.find_eq_some hd1.wf.uniq ?_
      exact Dict.getElem?_append_child.mpr (Or.inr ⟨rootDict_len.symm, rfl⟩)
    obtain ⟨s2, e3, e4⟩ := sim.hit _ _ 97 97 256 h6 (by simp [rootDict_len]) (by rw [List.length_append, rootDict_len]; decide) trivial hf
    refine ⟨[97, 97, 97], BitO.toBytes (n.coder.encAll [(.range 0 256, 97), (.range 0 257, 256)]), by simp, ?_, ?_⟩
    · simp only [lzwCompress, hs]
      have h3' : (t.impl.getRoot (t.impl.addRoots t.impl.empty 256) 97).2 = 97 := h3
      have h5' : (t.impl.getRoot s1 97).2 = 97 := h5
      have hsz' : t.impl.size (t.impl.getRoot s1 97).1 = 257 := hsz
      have e1' : t.impl.findOrInsert (t.impl.getRoot (t.impl.addRoots t.impl.empty 256) 97).1 97 97 = _ := e1
      simp only [h3', lzwLoop, e1', h5', hsz', e3]
      simp
    · have hHas : (Rng.range 0 256).Has 97 := by decide
      have hHas2 : (Rng.range 0 257).Has 256 := by decide
      have hdec2 : ∀ rest, n.coder.dec (.range 0 256) (n.coder.enc (.range 0 257) 256 ++ rest) = .ok (256, rest) := fun rest =>
        lzw_dec_limited n 300 (by omega) (by omega) 0 1 256 rest (by unfold LzwPair; simp) (by omega) (by decide)
      simp only [lzwDecompress, bitsOf_toBytes, UCoder.encAll, List.flatMap_cons, List.flatMap_nil]
      rw [if_neg (by omega)]
      generalize hfu : (n.coder.enc (.range 0 256) 97 ++ _).length = fuel
      obtain ⟨f, rfl⟩ : ∃ f, fuel = f + 1 := by
        refine ⟨fuel - 1, ?_⟩
        have := hne (.range 0 256) 97 (n.coder.enc (.range 0 257) 256 ++ []) hHas
        have : fuel ≠ 0 := by
          intro h0; subst h0
          rw [List.length_eq_zero_iff] at hfu
          rw [hfu] at this; simp at this
        omega
      have st1 : lzwStep 256 (lzwRoots 256) 256 97 = .ok (lzwRoots 256, [97]) := by
        unfold lzwStep
        rw [hroots, if_neg (by omega), if_neg (by omega)]
        simp [lzwRebuild, hget 97 (by omega), lzwFront]
      have st2 : lzwStep 256 (lzwRoots 256) 97 256 = .error .ub := by
        unfold lzwStep
        rw [hroots, if_neg (by omega), if_pos rfl]
        simp [lzwRebuild, hget 97 (by omega), lzwFront]
      rw [lzwDecLoop]
      simp only [hnorm, hne _ _ _ hHas, Bool.false_eq_true, if_false, Nat.zero_add]
      rw [n.lawful.dec_enc _ _ _ hHas]
      have m1 : 97 % 2 ^ 32 = 97 := by decide
      simp only [m1, st1]
      rw [lzwDecLoop]
      have m2 : 256 % 2 ^ 32 = 256 := by decide
      simp only [hroots, if_true, hne _ _ _ hHas2, Bool.false_eq_true, if_false, Nat.zero_add, hdec2, m2, st2]

/-- The bytes 0, 1, …, 255, 1. -/
def text512 : List UInt8 := (List.range 256).map UInt8.ofNat ++ [1]

/-- the codes written for it with `dict_size = 512`: the dictionary is reset before the last one -/
def codes512 : List Token := (List.range 256).map (fun j => (.range 0 (j + 256), j)) ++ [(.range 0 256, 1)]

set_option Elab.async false in
set_option maxRecDepth 1000000 in
theorem codes512_eq : (match lzwCompress ternaryTrie bitCoder 512 text512 with
    | .ok bs => bs == BitO.toBytes (bitCoder.encAll codes512) | .error _ => false) = true := by
  decide +kernel

/-- the dictionary of the decoder before code `j` -/
def dict512 (j : Nat) : List (Nat × UInt8) :=
  lzwRoots 512 ++ (List.range (j - 1)).map fun i => (i, UInt8.ofNat (i + 1))

theorem dict512_len (j : Nat) : (dict512 j).length = 256 + (j - 1) := by simp [dict512, lzwRoots]

theorem dict512_root (j k : Nat) (rest : List (Nat × UInt8)) (hk : k < 256) : vget (dict512 j ++ rest) k = .ok (512, UInt8.ofNat k) := by
  refine vget_some ?_
  simp only [dict512, lzwRoots, List.append_assoc]
  rw [List.getElem?_append_left (by simpa using hk)]
  simp [hk]

theorem dict512_step (j k : Nat) (hj : j ≤ 256) (hk : k < 256) :
    lzwStep 512 (dict512 j) (if j = 0 then 512 else j - 1) k =
      .ok (if j = 0 then dict512 j else dict512 j ++ [(j - 1, UInt8.ofNat k)], [UInt8.ofNat k]) := by
  have h0 := dict512_root j k [] hk
  rw [List.append_nil] at h0
  unfold lzwStep
  rw [dict512_len, if_neg (by omega), if_neg (by omega)]
  rw [lzwRebuild, if_neg (by omega), h0]
  simp only
  rw [show 256 + (j - 1) = (255 + (j - 1)) + 1 by omega, lzwRebuild, if_pos rfl]
  simp only [lzwFront]
  by_cases h : j = 0
  · simp [h]
  · simp only [h, if_false]
    rw [if_pos (by omega)]

theorem dict512_dec (m : Nat) : ∀ j fuel : Nat, j + m = 256 → m + 2 ≤ fuel →
    lzwDecLoop bitCoder 512 fuel
      (bitCoder.encAll ((List.range' j m).map (fun j => (.range 0 (j + 256), j)) ++ [(.range 0 256, 1)]))
      (dict512 j) (if j = 0 then 512 else j - 1) j = .ok ((List.range' j m).map UInt8.ofNat ++ [2]) := by
  induction m with
  | zero =>
    intro j fuel hj hf
    obtain ⟨f, rfl⟩ : ∃ f, fuel = f + 2 := ⟨fuel - 2, by omega⟩
    have hj : j = 256 := by omega
    subst hj
    rw [lzwDecLoop]
    rw [if_neg (by rw [dict512_len]; omega)]
    have e : bitCoder.dec (.range 0 (256 + 256)) (bitCoder.encAll [(.range 0 256, 1)]) = .ok (2, []) := by decide +kernel
    have e2 : (bitCoder.encAll [(.range 0 256, 1)]).isEmpty = false := by decide +kernel
    have hs := dict512_step 256 2 (by omega) (by omega)
    simp only [List.range'_zero, List.map_nil, List.nil_append, e, e2, Bool.false_eq_true, if_false]
    rw [show 2 % 2 ^ 32 = 2 by decide, hs]
    simp only
    rw [lzwDecLoop]
    simp only [List.isEmpty_nil, if_true]
    rfl
  | succ m ih =>
    intro j fuel hj hf
    obtain ⟨f, rfl⟩ : ∃ f, fuel = f + 1 := ⟨fuel - 1, by omega⟩
    have hHas : (Rng.range 0 (j + 256)).Has j := ⟨Nat.zero_le _, by show j ≤ j + 256; omega, by show j + 256 < 2 ^ 64; omega⟩
    have hl : bitCoder.Lawful := CoderName.lawful .bit
    have hs := dict512_step j j (by omega) (by omega)
    have hne : ∀ rest, (bitCoder.enc (.range 0 (j + 256)) j ++ rest).isEmpty = false := by
      intro rest
      cases hx : bitCoder.enc (.range 0 (j + 256)) j with
      | nil => exact absurd hx (hl.enc_ne_nil _ _ hHas)
      | cons a b => rfl
    rw [lzwDecLoop, dict512_len, if_neg (by omega)]
    rw [List.range'_succ, List.map_cons, List.cons_append, UCoder.encAll, List.flatMap_cons]
    simp only [hne, Bool.false_eq_true, if_false]
    rw [hl.dec_enc _ _ _ hHas]
    simp only
    rw [Nat.mod_eq_of_lt (by omega : j < 2 ^ 32), hs]
    simp only
    have hd : (if j = 0 then dict512 j else dict512 j ++ [(j - 1, UInt8.ofNat j)]) = dict512 (j + 1) := by
      by_cases h : j = 0
      · subst h; rfl
      · obtain ⟨i, rfl⟩ : ∃ i, j = i + 1 := ⟨j - 1, by omega⟩
        simp [dict512, List.range_succ]
    have := ih (j + 1) f (by omega) (by omega)
    rw [if_neg (by omega), Nat.add_sub_cancel] at this
    rw [hd]
    unfold UCoder.encAll at this
    rw [this]
    simp

set_option maxRecDepth 100000 in
/-- **C12 (negation).** The default configuration with `dict_size = 512` silently returns a different text: the decoder
reads the first code after a reset with 10 bits, the encoder wrote 9. -/
theorem lzw_bit_512_broken : ∃ bytes text', lzwCompress ternaryTrie bitCoder 512 text512 = .ok bytes ∧
    lzwDecompress bitCoder 512 bytes = .ok text' ∧ text' ≠ text512 := by
  have h := codes512_eq
  cases hc : lzwCompress ternaryTrie bitCoder 512 text512 with
  | error e => rw [hc] at h; simp at h
  | ok bs =>
    rw [hc] at h
    have hb : bs = BitO.toBytes (bitCoder.encAll codes512) := eq_of_beq h
    refine ⟨bs, (List.range 256).map UInt8.ofNat ++ [2], rfl, ?_, ?_⟩
    · rw [hb]
      have hlen : 257 ≤ (bitCoder.encAll codes512).length := by
        have hl : bitCoder.Lawful := CoderName.lawful .bit
        have : ∀ ts : List Token, (∀ t ∈ ts, t.1.Has t.2) → ts.length ≤ (bitCoder.encAll ts).length := by
          intro ts
          induction ts with
          | nil => simp
          | cons t ts ih =>
            intro h
            have h1 := ih fun t ht => h t (by simp [ht])
            have h2 := List.length_pos_iff.mpr (hl.enc_ne_nil _ _ (h t (by simp)))
            simp only [UCoder.encAll, List.flatMap_cons, List.length_append, List.length_cons] at h1 h2 ⊢
            omega
        have h3 := this codes512 (by
          intro t ht
          simp only [codes512, List.mem_append, List.mem_map, List.mem_range, List.mem_singleton] at ht
          rcases ht with ⟨j, hj, rfl⟩ | rfl
          · exact ⟨Nat.zero_le _, by show j ≤ j + 256; omega, by show j + 256 < 2 ^ 64; omega⟩
          · decide)
        have h4 : codes512.length = 257 := by simp only [codes512, List.length_append, List.length_map, List.length_range, List.length_singleton]
        omega
      have := dict512_dec 256 0 ((bitCoder.encAll codes512).length + 1) rfl (by omega)
      simp only [lzwDecompress, bitsOf_toBytes]
      rw [if_neg (by omega)]
      rw [← List.range_eq_range'] at this
      exact this
    · rw [text512]
      intro he
      have := List.append_cancel_left he
      simp at this

example : ([1, 1, 2, 0, 1, 1] : List UInt8).length + 257 < 2 ^ 32 - 1 := by decide

end Tdc
