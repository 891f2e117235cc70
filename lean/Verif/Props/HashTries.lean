import Verif.Lemmas.HashTriesHang

/-!
# C64: LZ78 and LZW with the hash tries on their real tables

C12 and C13 (Props/LZ78.lean, Props/LZW.lean) treat the tables of `hash` and `rolling` as lists of keys.  Here the tries use the hash table of
C32, with its growth, and the tries `hash_plus` and `rolling_plus` with two tables are covered.

* Whenever a compression returns, with any hash function, prober, size manager, load factor and any depth of the call stack, it has written
  the same bytes as with the list of keys, and the text is recovered.
* With linear probing and tables of a power of two the compression returns for every text.
* With the default size managers of `hash_plus` and `rolling_plus` it does not return for some texts: the second table of nine cells asks
  for nine cells when it gets its ninth entry with the last character.
-/

namespace Tdc.HT

open HM Rolling

/-- The tables of `HashTrie` and `RollingTrie` (one), of `HashTriePlus` and `RollingTriePlus` (two). -/
inductive RealTable {κ : Type} [DecidableEq κ] : IdTab κ → Prop
  | one (A : Conf κ) (depth lf n res : Nat) : RealTable (single A depth lf n res)
  | two (A1 A2 : Conf κ) (depth lf n res : Nat) : RealTable (plus A1 A2 depth lf n res)

theorem RealTable.sound {κ : Type} [DecidableEq κ] {D : IdTab κ} (h : RealTable D) : ∃ Rel, Sound D Rel := by
  cases h with
  | one A depth lf n res => exact ⟨_, sound_single A depth lf n res⟩
  | two A1 A2 depth lf n res => exact ⟨_, sound_plus A1 A2 depth lf n res⟩

/-! ## Whatever is written is right -/

/-- **C64 (soundness, LZ78).** Texts without zero bytes: whatever `hash` or `hash_plus` writes is decompressed to the text.  Missing (as in
C12): texts with zero bytes, texts whose last byte is above 127 with the coders other than `bit` and `ascii`. -/
theorem lz78_hash_real_partial {D : IdTab (Nat × UInt8)} (hD : RealTable D) (n : CoderName) (text : List UInt8)
    (hlen : text.length + 1 < 2 ^ 32 - 1) (hzero : (0 : UInt8) ∉ text)
    (hlast : n = .bit ∨ n = .ascii ∨ ∀ ch, text.getLast? = some ch → ch.toNat < 128) (bytes : List UInt8)
    (h : lz78Compress (hashTrieOn D) n.coder 0 text = .ok bytes) : lz78Decompress n.coder bytes = .ok text := by
  obtain ⟨Rel, S⟩ := hD.sound
  have S := Sound.beq (b1 := instBEqOfDecidableEq) (b2 := inferInstance) inferInstance inferInstance S
  have h1 := hash_lz78_sound S n.coder text (by unfold undefId; omega) h
  obtain ⟨b, e1, e2⟩ := lz78_hash_lossless_partial false n text hlen hzero hlast
  rw [e1] at h1
  cases h1
  exact e2

/-- **C64 (soundness, LZW).** The same for LZW. -/
theorem lzw_hash_real_partial {D : IdTab (Nat × UInt8)} (hD : RealTable D) (n : CoderName) (text : List UInt8)
    (hlen : text.length + 257 < 2 ^ 32 - 1) (hzero : (0 : UInt8) ∉ text) (bytes : List UInt8)
    (h : lzwCompress (hashTrieOn D) n.coder 0 text = .ok bytes) : lzwDecompress n.coder 0 bytes = .ok text := by
  obtain ⟨Rel, S⟩ := hD.sound
  have S := Sound.beq (b1 := instBEqOfDecidableEq) (b2 := inferInstance) inferInstance inferInstance S
  have h1 := hash_lzw_sound S n.coder text (by unfold undefId; omega) h
  obtain ⟨b, e1, e2⟩ := lzw_hash_lossless_partial false n text hlen hzero
  rw [e1] at h1
  cases h1
  exact e2

/-- **C64 (soundness, rolling tries).** Whatever `rolling` or `rolling_plus` makes LZ78 or LZW write is what is written with a faultless
table, for every rolling hash function; C12, C13 and C63 say when it can be decompressed. -/
theorem rolling_real (H : Roller) [DecidableEq H.κ] {D : IdTab H.κ} (hD : RealTable D) (c : UCoder) (text bytes : List UInt8)
    (hlen : text.length + 256 ≤ undefId) :
    (lz78Compress (rollingTrieOn H D) c 0 text = .ok bytes → lz78Compress (rollingTrie H) c 0 text = .ok bytes) ∧
    (lzwCompress (rollingTrieOn H D) c 0 text = .ok bytes → lzwCompress (rollingTrie H) c 0 text = .ok bytes) := by
  obtain ⟨Rel, S⟩ := hD.sound
  have S := Sound.beq (b1 := instBEqOfDecidableEq) (b2 := H.beq) inferInstance H.lawful S
  exact ⟨fun h => roll_lz78_sound S c text (by omega) h, fun h => roll_lzw_sound S c text hlen h⟩

/-- A compression with two tables which changes over to the second one and returns: the hypotheses of the theorems above are met. -/
example : RealTable (plus (confPow2 mix) (confDirect mix) 20 30 8 (resLz78 8)) ∧
    (match lz78Compress (hashTrieOn (plus (confPow2 mix) (confDirect mix) 20 30 8 (resLz78 8))) CoderName.bit.coder 0
        [97, 98, 99, 97, 98, 99, 100, 101] with
      | .ok bytes => lz78Decompress CoderName.bit.coder bytes == .ok [97, 98, 99, 97, 98, 99, 100, 101]
      | .error _ => false) = true :=
  ⟨.two .., by decide +kernel⟩

/-! ## Compressions which return -/

/-- **C64 (LZ78, `hash`).** With linear probing and tables of a power of two (the defaults), any hash function, load factor of 1 to 99 percent
and any reserved size, the compression returns and the text is recovered.  Missing: as in C12. -/
theorem lz78_hash_default_partial (hash : Nat × UInt8 → Nat) (lf : Nat) (h1 : 1 ≤ lf) (h2 : lf ≤ 99) (m res : Nat) (n : CoderName)
    (text : List UInt8) (hlen : text.length + 1 < 2 ^ 32 - 1) (hzero : (0 : UInt8) ∉ text)
    (hlast : n = .bit ∨ n = .ascii ∨ ∀ ch, text.getLast? = some ch → ch.toNat < 128) :
    ∃ depth bytes, lz78Compress (hashTrieOn (single (confPow2 hash) depth lf m res)) n.coder 0 text = .ok bytes ∧
      lz78Decompress n.coder bytes = .ok text := by
  obtain ⟨b, e1, e2⟩ := lz78_hash_lossless_partial false n text hlen hzero hlast
  have T := Total.beq (b1 := instBEqOfDecidableEq) (b2 := inferInstance) inferInstance inferInstance
    (total_single (good_pow2 hash undefId (Nat.le_refl _)) lf m res ⟨h1, h2⟩ (adm_new hash res))
  exact ⟨_, b, hash_lz78_total T n.coder text (by unfold undefId; omega) e1, e2⟩

/-- **C64 (LZW, `hash`).** The same for LZW. -/
theorem lzw_hash_default_partial (hash : Nat × UInt8 → Nat) (lf : Nat) (h1 : 1 ≤ lf) (h2 : lf ≤ 99) (m res : Nat) (n : CoderName)
    (text : List UInt8) (hlen : text.length + 257 < 2 ^ 32 - 1) (hzero : (0 : UInt8) ∉ text) :
    ∃ depth bytes, lzwCompress (hashTrieOn (single (confPow2 hash) depth lf m res)) n.coder 0 text = .ok bytes ∧
      lzwDecompress n.coder 0 bytes = .ok text := by
  obtain ⟨b, e1, e2⟩ := lzw_hash_lossless_partial false n text hlen hzero
  have T := Total.beq (b1 := instBEqOfDecidableEq) (b2 := inferInstance) inferInstance inferInstance
    (total_single (good_pow2 hash undefId (Nat.le_refl _)) lf m res ⟨h1, h2⟩ (adm_new hash res))
  exact ⟨_, b, hash_lzw_total T n.coder text (by unfold undefId; omega) e1, e2⟩

/-- **C64 (LZ78, `hash_plus`).** With a second table of a power of two (`hash_manager=pow2`, not the default) the compression returns too.
Missing: the other managers, see `lz78_hash_plus_hangs`. -/
theorem lz78_hash_plus_pow2_partial (hash1 hash2 : Nat × UInt8 → Nat) (lf : Nat) (h1 : 1 ≤ lf) (h2 : lf ≤ 99) (m res : Nat) (n : CoderName)
    (text : List UInt8) (hlen : text.length + 1 < 2 ^ 32 - 1) (hzero : (0 : UInt8) ∉ text)
    (hlast : n = .bit ∨ n = .ascii ∨ ∀ ch, text.getLast? = some ch → ch.toNat < 128) :
    ∃ depth bytes, lz78Compress (hashTrieOn (plus (confPow2 hash1) (confPow2 hash2) depth lf m res)) n.coder 0 text = .ok bytes ∧
      lz78Decompress n.coder bytes = .ok text := by
  obtain ⟨b, e1, e2⟩ := lz78_hash_lossless_partial false n text hlen hzero hlast
  have T := Total.beq (b1 := instBEqOfDecidableEq) (b2 := inferInstance) inferInstance inferInstance
    (total_plus (good_pow2 hash1 undefId (Nat.le_refl _)) (good_pow2 hash2 undefId (Nat.le_refl _)) lf m res ⟨h1, h2⟩
      ⟨by show 1 ≤ 95; decide, by show 95 ≤ 99; decide⟩ (adm_new hash1 res) (adm_pow2 hash2))
  exact ⟨_, b, hash_lz78_total T n.coder text (by unfold undefId; omega) e1, e2⟩

/-- **C64 (LZW, `hash_plus`).** The same for LZW. -/
theorem lzw_hash_plus_pow2_partial (hash1 hash2 : Nat × UInt8 → Nat) (lf : Nat) (h1 : 1 ≤ lf) (h2 : lf ≤ 99) (m res : Nat) (n : CoderName)
    (text : List UInt8) (hlen : text.length + 257 < 2 ^ 32 - 1) (hzero : (0 : UInt8) ∉ text) :
    ∃ depth bytes, lzwCompress (hashTrieOn (plus (confPow2 hash1) (confPow2 hash2) depth lf m res)) n.coder 0 text = .ok bytes ∧
      lzwDecompress n.coder 0 bytes = .ok text := by
  obtain ⟨b, e1, e2⟩ := lzw_hash_lossless_partial false n text hlen hzero
  have T := Total.beq (b1 := instBEqOfDecidableEq) (b2 := inferInstance) inferInstance inferInstance
    (total_plus (good_pow2 hash1 undefId (Nat.le_refl _)) (good_pow2 hash2 undefId (Nat.le_refl _)) lf m res ⟨h1, h2⟩
      ⟨by show 1 ≤ 95; decide, by show 95 ≤ 99; decide⟩ (adm_new hash1 res) (adm_pow2 hash2))
  exact ⟨_, b, hash_lzw_total T n.coder text (by unfold undefId; omega) e1, e2⟩

/-! ### Tables of prime sizes, the default of `rolling` -/

theorem primeMin_mem (h : Nat) : primeMin h ∈ primes := by
  unfold primeMin
  cases e : primes.find? (fun p => h ≤ p) with
  | none => decide
  | some p => exact List.mem_of_find?_eq_some e

theorem primeMin_ge (h : Nat) (hh : h ≤ 4294967291) : h ≤ primeMin h := by
  unfold primeMin
  cases e : primes.find? (fun p => h ≤ p) with
  | none => exact hh
  | some p =>
    have := List.find?_some e
    simpa using this

theorem good_prime {κ : Type} [DecidableEq κ] (hash : κ → Nat) (L N B : Nat) (h1 : L ≤ 95) (hB : B ≤ 2147483647) (hN : 100 * N < B * L)
    (hu : N ≤ undefId) : Good (confPrime hash) (fun s => s ∈ primes ∧ 11 ≤ s) (fun p => L ≤ p.lf ∧ p.lf ≤ 99) N B where
  lin := { pos := fun s h => by omega, modT := fun _ _ _ _ _ => rfl, get := fun _ _ _ _ => rfl }
  tick _ _ h := h
  hN := hu
  pol := {
    room := by
      rintro p s e ⟨i1, i2⟩ ⟨-, hs⟩ h
      have h : growth p s e = none := h
      unfold growth at h
      split at h
      · dsimp only at h; split at h <;> cases h
      · rename_i hlt
        have : s * p.lf ≤ s * 99 := Nat.mul_le_mul_left s i2
        omega
    grows := by
      rintro p s e h p' ⟨i1, i2⟩ ⟨-, hs⟩ hlt hg
      have hg : growth p s e = some (h, p') := hg
      have key : s < h ∧ h ≤ 4294967291 := by
        unfold growth at hg
        split at hg
        · dsimp only at hg
          split at hg
          · injection hg with hg
            injection hg with hg1 hg2
            omega
          · injection hg with hg
            injection hg with hg1 hg2
            omega
        · cases hg
      have h2 := primeMin_ge h key.2
      have h3 : s < primeMin h := by omega
      exact ⟨h3, primeMin_mem h, by show 11 ≤ primeMin h; omega⟩
    inv := by
      rintro p s e h p' ⟨i1, i2⟩ hg
      have hg : growth p s e = some (h, p') := hg
      unfold growth at hg
      split at hg
      · dsimp only at hg
        split at hg
        · injection hg with hg
          injection hg with hg1 hg2
          rw [← hg2]; exact ⟨h1, by show 95 ≤ 99; decide⟩
        · injection hg with hg
          injection hg with hg1 hg2
          rw [← hg2]; exact ⟨i1, i2⟩
      · cases hg
    stop := by
      rintro p s e ⟨i1, i2⟩ he hs
      show growth p s e = none
      unfold growth
      rw [if_neg]
      have : B * L ≤ s * p.lf := Nat.mul_le_mul hs i1
      omega }

/-- The square root computed by the code is never above 15, and at least 3 from 9 on. -/
theorem isqrt_bounds (n : Nat) : CSH.isqrt n ≤ 15 ∧ (9 ≤ n → 3 ≤ CSH.isqrt n) := by
  unfold CSH.isqrt
  by_cases h64 : 64 ≤ n
  · rw [if_pos h64]
    simp only [CSH.isqrtLoop]
    split_ifs <;> omega
  · rw [if_neg h64]
    by_cases h16 : 16 ≤ n
    · rw [if_pos h16]
      simp only [CSH.isqrtLoop]
      split_ifs <;> omega
    · rw [if_neg h16]
      by_cases h4 : 4 ≤ n
      · rw [if_pos h4]
        simp only [CSH.isqrtLoop]
        split_ifs <;> omega
      · rw [if_neg h4]
        by_cases h1 : 1 ≤ n
        · rw [if_pos h1]
          simp only [CSH.isqrtLoop]
          split_ifs <;> omega
        · rw [if_neg h1]
          exact ⟨by show 0 ≤ 15; decide, fun h => by omega⟩

/-- **C64 (`rolling`).** With linear probing and tables of prime size (the defaults), any hash function on the rolling hash values, and the
default load factor of 30 percent: a text of at most 600 million bytes is compressed as with a faultless table, by LZW, and by LZ78 if it has
at least nine bytes.  Missing: shorter texts with LZ78, whose first table has five cells. -/
theorem rolling_prime_partial (H : Roller) [DecidableEq H.κ] (hash : H.κ → Nat) (m : Nat) (c : UCoder) (text bytes : List UInt8)
    (hlen : text.length ≤ 600000000) :
    (9 ≤ text.length → lz78Compress (rollingTrie H) c 0 text = .ok bytes →
      ∃ depth, lz78Compress (rollingTrieOn H (single (confPrime hash) depth 30 m (resLz78 text.length))) c 0 text = .ok bytes) ∧
    (lzwCompress (rollingTrie H) c 0 text = .ok bytes →
      ∃ depth, lzwCompress (rollingTrieOn H (single (confPrime hash) depth 30 m (resLzw text.length))) c 0 text = .ok bytes) := by
  have G := good_prime hash 30 600000256 2147483647 (by decide) (Nat.le_refl _) (by decide) (by decide)
  have hI : (30 : Nat) ≤ (⟨30, m, m⟩ : Pol).lf ∧ (⟨30, m, m⟩ : Pol).lf ≤ 99 := ⟨Nat.le_refl _, by show 30 ≤ 99; decide⟩
  have ha : ∀ res, 6 ≤ res → res ≤ 4294967291 → (if res > 0 then (confPrime hash).cfg.minSize res else 4) ∈ primes ∧
      11 ≤ (if res > 0 then (confPrime hash).cfg.minSize res else 4) := by
    intro res h6 hr
    rw [if_pos (by omega)]
    have h1 := primeMin_mem res
    have h2 := primeMin_ge res hr
    refine ⟨h1, ?_⟩
    show 11 ≤ primeMin res
    have h3 : ∀ p ∈ primes, 6 ≤ p → 11 ≤ p := by decide
    exact h3 _ h1 (by omega)
  obtain ⟨hs, h3⟩ := isqrt_bounds text.length
  refine ⟨fun h9 h => ?_, fun h => ?_⟩
  · have h3 := h3 h9
    have T := Total.beq (b1 := instBEqOfDecidableEq) (b2 := H.beq) inferInstance H.lawful
      (total_single G 30 m (resLz78 text.length) hI (ha _ (by unfold resLz78; omega) (by unfold resLz78; omega)))
    exact ⟨_, roll_lz78_total T c text (by omega) h⟩
  · have T := Total.beq (b1 := instBEqOfDecidableEq) (b2 := H.beq) inferInstance H.lawful
      (total_single G 30 m (resLzw text.length) hI (ha _ (by unfold resLzw; omega) (by unfold resLzw; omega)))
    exact ⟨_, roll_lzw_total T c text (by omega) h⟩

/-! ## Compressions which do not return -/

theorem resLz78_six {n : Nat} (hn : n = 9 ∨ n = 10) : pow2Min (resLz78 n) = 8 ∧ resLz78 n > 0 := by
  rcases hn with rfl | rfl <;> decide +kernel

/-- The state after `add_rootnode`. -/
theorem plus_root {κ : Type} [DecidableEq κ] (hash : κ → Nat) (A2 : Conf κ) {depth n : Nat} (hn : n = 9 ∨ n = 10) (k : κ) {s : Two κ}
    (h : (plus (confPow2 hash) A2 depth 30 n (resLz78 n)).root (plus (confPow2 hash) A2 depth 30 n (resLz78 n)).new k = .ok s) :
    s.t2 = newTable A2.cfg 95 n 0 ∧ Rep (confPow2 hash).cfg undefId s.t1 (idMap [k]) ∧ s.t1.cells.length = 8 ∧ s.t1.pol = ⟨30, n, n⟩ := by
  have h : (if (newTable A2.cfg 95 n 0).entries ≠ 0 then .error .ub
      else (insert (confPow2 hash).cfg growth undefId depth (newTable (confPow2 hash).cfg 30 n (resLz78 n)) k 0).bind
        fun r => .ok ⟨r.1, newTable A2.cfg 95 n 0⟩) = Except.ok s := h
  rw [if_neg (fun h => h rfl)] at h
  obtain ⟨⟨T, w, b⟩, h1, h2⟩ := bind_eq_ok'.mp h
  cases h2
  obtain ⟨keys', e1, e2⟩ := rep_ins (A := confPow2 hash) (rep_new (confPow2 hash).cfg 30 n (resLz78 n)) (by show 0 < undefId; decide) rfl h1
  have hk : keys' = [k] := by
    have : tableInsert ([] : List κ) k = ([k], 0, true) := rfl
    rw [this] at e1
    exact (congrArg Prod.fst e1).symm
  subst hk
  obtain ⟨l1, l2⟩ := insert_len8 (n := n) (r := n) (T := newTable (confPow2 hash).cfg 30 n (resLz78 n)) (by
    show (freshCells κ (if resLz78 n > 0 then pow2Min (resLz78 n) else 4)).length = 8
    rw [if_pos (resLz78_six hn).2, (resLz78_six hn).1]; simp [freshCells]) (by show 0 + 1 ≤ 2; decide) rfl h1
  exact ⟨rfl, e2, l1, l2⟩

/-- The nodes of the dictionary of LZ78 after a text: pairs of the number of the parent and a character, the root first. -/
def dictNodes (text : List UInt8) : List (Nat × UInt8) := keysRun hkey hnext text [(0, 0)] 0

/-- **C64 (negation, `hash_plus`).** With a second table managed by `SizeManagerDirect` (the default) or `SizeManagerNoob`, and load factor 30
(the default): a text of nine or ten bytes with eight factors, the last of which ends with the text, makes the compressor recurse for ever.
This holds for all hash functions, every depth of the call stack and every coder. -/
theorem lz78_hash_plus_hangs (hash1 hash2 : Nat × UInt8 → Nat) (A2 : Conf (Nat × UInt8)) (hA : A2 = confDirect hash2 ∨ A2 = confNoob hash2)
    (text : List UInt8) (hn : text.length = 9 ∨ text.length = 10) (h0 : (0 : UInt8) ∉ text) (h9 : (dictNodes text).length = 9)
    (h8 : (dictNodes text.dropLast).length = 8) (c : UCoder) (depth : Nat) (bytes : List UInt8) :
    lz78Compress (hashTrieOn (plus (confPow2 hash1) A2 depth 30 text.length (resLz78 text.length))) c 0 text ≠ .ok bytes := by
  have X : Stuck A2 := by
    rcases hA with rfl | rfl
    · exact stuck_direct hash2
    · exact stuck_noob hash2
  intro h
  have S := Sound.beq (b1 := instBEqOfDecidableEq) (b2 := instBEqProd) inferInstance inferInstance
    (sound_plus (confPow2 hash1) A2 depth 30 text.length (resLz78 text.length))
  generalize hD : plus (confPow2 hash1) A2 depth 30 text.length (resLz78 text.length) = D at h
  have h : (match lz78Loop (hashTrieOn D) 0 text (D.root D.new (0, 0)) 0 0 0 0 with
    | .error e => .error e
    | .ok es =>
      match c.encEmits es with
      | .error e => .error e
      | .ok bits => .ok (BitO.toBytes bits)) = Except.ok bytes := h
  cases hl : lz78Loop (hashTrieOn D) 0 text (D.root D.new (0, 0)) 0 0 0 0 with
  | error e => rw [hl] at h; cases h
  | ok es =>
    cases hr : D.root D.new (0, 0) with
    | error e =>
      rw [hr] at hl
      cases text with
      | nil => simp at hn
      | cons x text =>
        have := (lz78Loop_cons (hashTrieOn D) 0 x text (.error e) 0 0 0 0).symm.trans hl
        cases this
    | ok s =>
      rw [hr] at hl
      subst hD
      obtain ⟨r1, r2, r3, r4⟩ := plus_root hash1 A2 hn (0, 0) hr
      obtain ⟨t, ht⟩ := lz78Loop_tabRun S text s [(0, 0)] 0 0 0 0 es (Or.inl ⟨by rw [r1]; rfl, r2⟩)
        (by simp; rcases hn with h | h <;> rw [h] <;> decide) hl
      cases text with
      | nil => simp at hn
      | cons x cs =>
        have hb : (instBEqProd : BEq (Nat × UInt8)) = instBEqOfDecidableEq := beq_unique _ _ inferInstance inferInstance
        refine tabRun_hang rfl X hn hkey hnext x cs s (0, 0) 0 rfl r1 r2 r3 r4 ?_ ?_ ?_ t ht
        · intro h
          have : x = 0 := congrArg Prod.snd h
          exact h0 (this ▸ List.mem_cons_self)
        · rw [← hb]; exact h9
        · rw [← hb]; exact h8

/-- "aabcdefgh", nine bytes, has the eight factors a, ab, c, d, e, f, g, h; "ababcdefgh" with ten bytes has a, b, abc, d, e, f, g, h. -/
example : let t : List UInt8 := [97, 97, 98, 99, 100, 101, 102, 103, 104]
    t.length = 9 ∧ 0 ∉ t ∧ (dictNodes t).length = 9 ∧ (dictNodes t.dropLast).length = 8 := by decide +kernel

/-- **C64 (negation, `hash_plus`, the defaults).** `aabcdefgh` with `MixHasher` and `SizeManagerDirect`. -/
theorem lz78_hash_plus_default_hangs (c : UCoder) (depth : Nat) (bytes : List UInt8) :
    lz78Compress (hashTrieOn (plus (confPow2 mix) (confDirect mix) depth 30 9 (resLz78 9))) c 0
      [97, 97, 98, 99, 100, 101, 102, 103, 104] ≠ .ok bytes :=
  lz78_hash_plus_hangs mix mix _ (Or.inl rfl) [97, 97, 98, 99, 100, 101, 102, 103, 104] (Or.inl rfl) (by decide) (by decide +kernel)
    (by decide +kernel) c depth bytes

/-- The keys of the dictionary of LZ78 after a text, for a rolling hash function. -/
def dictHashes (H : Roller) (text : List UInt8) : List H.κ :=
  keysRun (rkey H) (rnext H) text [H.hash [0]] (H.step H.init 0)

/-- **C64 (negation, `rolling_plus`).** The same for `rolling_plus`, for every rolling hash function. -/
theorem lz78_rolling_plus_hangs (H : Roller) [DecidableEq H.κ] (hash1 hash2 : H.κ → Nat) (A2 : Conf H.κ)
    (hA : A2 = confDirect hash2 ∨ A2 = confNoob hash2) (x : UInt8) (cs : List UInt8) (hn : (x :: cs).length = 9 ∨ (x :: cs).length = 10)
    (h0 : H.hash [0, x] ≠ H.hash [0]) (h9 : (dictHashes H (x :: cs)).length = 9)
    (h8 : (dictHashes H (x :: cs).dropLast).length = 8) (c : UCoder) (depth : Nat) (bytes : List UInt8) :
    lz78Compress (rollingTrieOn H (plus (confPow2 hash1) A2 depth 30 (x :: cs).length (resLz78 (x :: cs).length))) c 0 (x :: cs) ≠ .ok bytes := by
  have X : Stuck A2 := by
    rcases hA with rfl | rfl
    · exact stuck_direct hash2
    · exact stuck_noob hash2
  intro h
  have S := Sound.beq (b1 := instBEqOfDecidableEq) (b2 := H.beq) inferInstance H.lawful
    (sound_plus (confPow2 hash1) A2 depth 30 (x :: cs).length (resLz78 (x :: cs).length))
  generalize hD : plus (confPow2 hash1) A2 depth 30 (x :: cs).length (resLz78 (x :: cs).length) = D at h
  have h : (match lz78Loop (rollingTrieOn H D) 0 (x :: cs)
      (((D.root D.new (H.hash [0])).bind fun t => .ok (H.init, t)).bind fun s => .ok (H.step s.1 0, s.2)) 0 0 0 0 with
    | .error e => .error e
    | .ok es =>
      match c.encEmits es with
      | .error e => .error e
      | .ok bits => .ok (BitO.toBytes bits)) = Except.ok bytes := h
  cases hl : lz78Loop (rollingTrieOn H D) 0 (x :: cs)
      (((D.root D.new (H.hash [0])).bind fun t => .ok (H.init, t)).bind fun s => .ok (H.step s.1 0, s.2)) 0 0 0 0 with
  | error e => rw [hl] at h; cases h
  | ok es =>
    cases hr : D.root D.new (H.hash [0]) with
    | error e =>
      rw [hr] at hl
      have := (lz78Loop_cons (rollingTrieOn H D) 0 x cs (.error e) 0 0 0 0).symm.trans hl
      cases this
    | ok s =>
      rw [hr] at hl
      have hl : lz78Loop (rollingTrieOn H D) 0 (x :: cs) (.ok (H.step H.init 0, s)) 0 0 0 0 = .ok es := hl
      subst hD
      obtain ⟨r1, r2, r3, r4⟩ := plus_root hash1 A2 hn _ hr
      obtain ⟨t, ht⟩ := lz78Loop_tabRun_roll S (x :: cs) s [H.hash [0]] (H.step H.init 0) 0 0 0 0 es (Or.inl ⟨by rw [r1]; rfl, r2⟩)
        (by rw [List.length_singleton]; unfold undefId; omega) hl
      have hb : H.beq = instBEqOfDecidableEq := beq_unique _ _ inferInstance inferInstance
      refine tabRun_hang rfl X hn (rkey H) (rnext H) x cs s (H.hash [0]) (H.step H.init 0) rfl r1 r2 r3 r4 h0 ?_ ?_ t ht
      · rw [← hb]; exact h9
      · rw [← hb]; exact h8

/-- **C64 (negation, `rolling_plus`, the defaults).** `aabcdefgh` with `ZBackupRollingHash`, `NoopHasher` and `SizeManagerNoob`. -/
theorem lz78_rolling_plus_default_hangs (c : UCoder) (depth : Nat) (bytes : List UInt8) :
    lz78Compress (rollingTrieOn zbackup (@plus Nat instDecidableEqNat (confPow2 id) (confNoob id) depth 30 9 (resLz78 9))) c 0
      [97, 97, 98, 99, 100, 101, 102, 103, 104] ≠ .ok bytes :=
  @lz78_rolling_plus_hangs zbackup instDecidableEqNat id id _ (Or.inr rfl) 97 [97, 98, 99, 100, 101, 102, 103, 104] (Or.inl rfl)
    (fun h => absurd (h : @Eq Nat (zbackup.hash [0, 97]) (zbackup.hash [0])) (Nat.ne_of_beq_eq_false (by decide +kernel))) (by decide +kernel)
    (by decide +kernel) c depth bytes

/-! ## Restarting the dictionary -/

/-- **C64 (negation, `dict_size`).** After the change-over to the second table, restarting the dictionary (`dict_size=4`) makes `hash_plus`
insert the root into the first table, which has been released. -/
theorem lz78_hash_plus_restart : lz78Compress (hashTrieOn (plus (confPow2 mix) (confDirect mix) 20 30 8 (resLz78 8))) CoderName.bit.coder 4
      [97, 98, 99, 100, 101, 102, 103, 104] = .error .ub := by
  decide +kernel

end Tdc.HT
