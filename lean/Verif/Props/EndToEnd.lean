import Verif.Props.Judy
import Verif.Model.EndToEnd
import Verif.Props.LZ78
import Verif.Props.LZW
import Verif.Props.LZSSWindow
import Verif.Props.LZSSLCP
import Verif.Props.SLE
import Verif.Props.RePair
import Verif.Props.Esp
import Verif.Props.LFS
import Verif.Props.LiteralEntropy
import Verif.Props.Arithmetic
import Verif.Props.CompactHash
import Verif.Props.RollingLZW
import Verif.Props.EspFitWT
import Verif.Props.LFS2

/-!
# C75: the registered compressors, end to end

From the bytes of a file, a stream or a string to the compressed bytes with their header and back, through the restrictions of the input
and the output: every registered compressor, and every chain of them.
-/

namespace Tdc

/-- The surroundings keep their promises: memory has pages, divsufsort sorts the suffixes of the texts that end with their only 0,
the hash maps list each of their entries once, and `sdsl` builds suffix trees. -/
structure Sys.Ok (E : Sys) : Prop where
  page : 0 < E.ps
  sa : ∀ v, Sentinel v → IsSA v (E.saOf v)
  iter : ∀ l, (E.iter l).Perm l
  kids : ∀ v, Lfs.Orders (E.kids v) v
  tree : ∀ v, Sentinel v → ∃ label, Lfs.SoundTree v (E.sdslTree v) label

/-- Texts without the byte 0 and without the byte 255 need no escaping. -/
def NoEscapes (t : List UInt8) : Prop := (0 : UInt8) ∉ t ∧ (255 : UInt8) ∉ t

/-- The texts that the options of `lcpcomp` and `lzss_lcp` allow -/
def RefCoder.Safe (c : RefCoder) (t : List UInt8) : Prop :=
  match c with
  | .plain _ => True
  | .huffman => NoEscapes t
  | .sle k => 1 ≤ k ∧ k ≤ 7

/-- the same for the literal coders of `lfs` -/
def LitName.Safe (l : LitName) (t : List UInt8) : Prop :=
  match l with
  | .plain _ => True
  | .huffman => NoEscapes t

/-- the same for the coders of `encode` (C78) -/
def LitEnc.Safe (c : LitEnc) (t : List UInt8) : Prop :=
  match c with
  | .plain _ => True
  | .huffman => t.length < 2 ^ 32 ∧ ((255 : UInt8) ∈ t → ∀ c ∈ t, c = 255)
  | .arithmetic => t.length < 2 ^ 31 ∧ (255 : UInt8) ∉ t ∧ (∃ c ∈ t, c ≠ 0) ∧ ((0 : UInt8) ∈ t → ∃ c ∈ t, c ≠ 0 ∧ t.count c ≤ t.count 0)
  | .sle k => 1 ≤ k ∧ k ≤ 7 ∧ (k = 1 ∨ t ≠ [])

/-- Hash tables that can always grow: powers of two and linear probing, a load factor of 1 to 99 percent, and a call stack that is deep enough for
the recursion of the rehashing. -/
def HashTab.Grows {κ : Type} [DecidableEq κ] (T : HashTab κ) : Prop :=
  ∃ lf, (1 ≤ lf ∧ lf ≤ 99) ∧ ((∃ hash, T = .one (HT.confPow2 hash) (100 * undefId + 4 + 2) lf) ∨
    ∃ hash1 hash2, T = .two (HT.confPow2 hash1) (HT.confPow2 hash2) (100 * undefId + 4 + 2) lf)

/-- Different substrings of the text have different hash values (`lz78`: behind the byte 0 of the root). -/
def Separates78 (H : Roller) (t : List UInt8) : Prop := ∀ u v, u <:+: t → v <:+: t → H.hash (0 :: u) = H.hash (0 :: v) → u = v

/-- the same for `lzw`, with all single bytes -/
def SeparatesW (H : Roller) (t : List UInt8) : Prop :=
  (∀ a b : UInt8, H.hash [a] = H.hash [b] → a = b) ∧ ∀ u v : List UInt8, (u <:+: t ∨ u.length = 1) → v <:+: t → H.hash u = H.hash v → u = v

/-- The texts for which the tries of `lz78` are right. With the tables that cannot grow and with the rolling hash functions the compressor need not return. -/
def TrieName.Safe78 (c : CoderName) (t : List UInt8) (n : TrieName) : Prop :=
  match n with
  | .ptr _ => True
  | .ext => (0 : UInt8) ∉ t
  | .hash T => (0 : UInt8) ∉ t ∧ (T.Grows ∨ ∃ z, lz78Compress (n.impl false t.length (HT.resLz78 t.length)) c.coder 0 t = .ok z)
  | .wordpack _ => t.length + 256 ≤ undefId ∧ Separates78 Rolling.wordpack t ∧ ∃ z, lz78Compress (n.impl false t.length (HT.resLz78 t.length)) c.coder 0 t = .ok z
  | .karpRabin key _ => t.length + 256 ≤ undefId ∧ Separates78 (Rolling.rk key) t ∧ ∃ z, lz78Compress (n.impl false t.length (HT.resLz78 t.length)) c.coder 0 t = .ok z
  | .judy => True
  | .compact => (0 : UInt8) ∉ t ∧ ∃ z, lz78Compress (n.impl true t.length (HT.resLz78 t.length)) c.coder 0 t = .ok z

/-- the same for `lzw` -/
def TrieName.SafeW (c : CoderName) (t : List UInt8) (n : TrieName) : Prop :=
  match n with
  | .ptr _ => True
  | .ext => (0 : UInt8) ∉ t
  | .hash T => (0 : UInt8) ∉ t ∧ (T.Grows ∨ ∃ z, lzwCompress (n.impl false t.length (HT.resLzw t.length)) c.coder 0 t = .ok z)
  | .wordpack _ => SeparatesW Rolling.wordpack t ∧ ∃ z, lzwCompress (n.impl false t.length (HT.resLzw t.length)) c.coder 0 t = .ok z
  | .karpRabin key _ => SeparatesW (Rolling.rk key) t ∧ ∃ z, lzwCompress (n.impl false t.length (HT.resLzw t.length)) c.coder 0 t = .ok z
  | .judy => (0 : UInt8) ∉ t
  | .compact => (0 : UInt8) ∉ t ∧ t.length < 65280 ∧ ∃ z, lzwCompress (n.impl false t.length (HT.resLzw t.length)) c.coder 0 t = .ok z

/-- the condition of the SLP coders: the range coder need not return -/
def EspCoder.Safe (c : EspCoder) (map : Esp.IpdName) (E : Sys) (t : List UInt8) : Prop :=
  match c with
  | .rangeFit _ _ => ∃ z, c.comp map E t = .ok z
  | _ => True

/-- The options and texts for which the algorithm is right: sizes fit into the types of the code, and the known defects (DESIGN.md,
findings) are avoided. A chain is right for a text if its first part is, and its second part is for what the first one makes of the text. -/
def Algo.Safe (E : Sys) : Algo → List UInt8 → Prop
  | .noop _ _, _ => True
  | .rle _, t => ¬ EndsFFFF t ∧ t.length < 2 ^ 64
  | .mtf, _ => True
  | .literal c, t => c.Safe t
  | .lz78 n c, t => t.length + 1 < 2 ^ 32 - 1 ∧ (c = .bit ∨ c = .ascii ∨ ∀ ch, t.getLast? = some ch → ch.toNat < 128) ∧ n.Safe78 c t
  | .lzw n c, t => t.length + 257 < 2 ^ 32 - 1 ∧ n.SafeW c t
  | .lzss c w _, t => (0 < w ∧ w < 2 ^ 62) ∧ t.length < 2 ^ 64 ∧ (c ≠ .bit ∨ ∃ k, w = 2 ^ k)
  | .lzssLcp c _ th, t => 1 ≤ th ∧ 2 * t.length + 1 < 2 ^ 32 ∧ c.Safe t
  | .lzssTextDS _ _ ik _ th, t => 1 ≤ th ∧ 2 * t.length + 1 < 2 ^ 32 ∧ ∀ d, ik = .sparse d → 1 ≤ d
  | .lcpcomp c s d _ _ th, t => 1 ≤ th ∧ s ≠ .maxHeap ∧ d.Ok ∧ 2 * t.length + 1 < 2 ^ 31 ∧ c.Safe t
  | .lz78u _ _ th, t => 1 ≤ th ∧ 2 * t.length + 1 < 2 ^ 32 ∧ ∀ v, readRestricted sentinelRestr t = .ok v → v.length < 2 ^ U78.width v
  | .lz78uHuffman _ th, t => 1 ≤ th ∧ 2 * t.length + 1 < 2 ^ 32 ∧ NoEscapes t ∧
      ∀ fs, U78.factors (t.length + 2) th (t ++ [0]) = .ok fs → (U78.chars fs.flatten).length < 2 ^ 32 ∧ fs.length < 2 ^ U78.width (t ++ [0])
  | .repair _ _, t => t ≠ [] ∧ t.length + 256 < 2 ^ 32
  | .repairHuffman m, t => t ≠ [] ∧ 2 * t.length + 256 < 2 ^ 32 ∧ (255 : UInt8) ∉ t ∧ ((0 < m ∧ m ≤ 255) ∨ t.length ≤ 255)
  | .bwt, t => NoEscapes t
  | .esp c map, t => t.length ≤ 2 ^ 30 ∧ c.Safe map E t
  | .lfsEsa l _ _ _, t => 2 * t.length + 1 < 2 ^ 32 ∧ l.Safe t
  | .lfsBst l _ m, t => 0 < m ∧ 2 * t.length + 1 < 2 ^ 32 ∧ l.Safe t
  | .lfsSt l _ m, t => 0 < m ∧ 2 * t.length + 1 < 2 ^ 32 ∧ l.Safe t ∧ ∀ v, readRestricted sentinelRestr t = .ok v → Lfs.NoRepeat 400 v
  | .lfsSimSt l _ m, t => 0 < m ∧ 2 * t.length + 1 < 2 ^ 32 ∧ l.Safe t
  | .lfs2 _ l _ m, t => 0 < m ∧ (t ≠ [] ∨ 1 < m) ∧ 2 * t.length + 1 < 2 ^ 32 ∧ l.Safe t
  | .lfs2bst l _ m, t => 0 < m ∧ (t ≠ [] ∨ 1 < m) ∧ 2 * t.length + 1 < 2 ^ 32 ∧ l.Safe t
  | .chain a b, t => a.Safe E t ∧ ∀ z, runCompress (a.comp E) (Inp.ofSource (.view t)) = .ok z → b.Safe E z

/-- A compressor without restrictions. -/
theorem leaf_plain {ps : Nat} (hps : 0 < ps) (rc rd : Reading) (c : List UInt8 → Res (List UInt8)) (d : List UInt8 → Res (List (List UInt8)))
    (t : List UInt8) (h : ∃ z chunks, c t = .ok z ∧ d z = .ok chunks ∧ chunks.flatten = t) : LosslessRun (leaf ps noRestr rc rd c d) t := by
  refine run_of_at _ [] false rfl t (leaf_losslessAt ps hps _ [] false (canEscape_six _ _ (by simp)) _ _ _ _ t ?_)
  intro v hv
  have : v = t := by
    rw [make_nil] at hv
    simp only [readRestricted, Restr.hasNone, Restr.hasNoEscape, List.isEmpty_nil] at hv
    simpa using hv.symm
  subst this
  obtain ⟨z, ch, h1, h2, h3⟩ := h
  exact ⟨z, ch, h1, h2, .inl h3⟩

/-- What a compressor with restrictions reads. -/
theorem read_form {t v : List UInt8} (hv : readRestricted sentinelRestr t = .ok v) :
    Sentinel v ∧ v.length ≤ 2 * t.length + 1 ∧ t.length + 1 ≤ v.length ∧ (NoEscapes t → v = t ++ [0]) := by
  obtain ⟨out, ⟨body, hb, h0, hl⟩, _, _, _, hr⟩ := restrict_agree_partial 1 (by decide) [0] true (canEscape_six _ _ (by simp)) t
  have : v = out := by
    rw [show readRestricted (Restr.make [0] true) t = .ok v from hv] at hr
    simpa using hr
  subst this
  simp only [if_true] at hb
  have hlen : body.length ≤ 2 * t.length ∧ t.length ≤ body.length := by
    rcases hl with ⟨h, _⟩ | ⟨e, _, hl⟩
    · simp at h
    · have := List.countP_le_length (p := fun b => b == e || [0].contains b) (l := t)
      omega
  refine ⟨⟨body, hb, h0 0 (by simp)⟩, ?_, ?_, fun hn => read_sentinel t v hn.1 hn.2 hv⟩ <;> rw [hb] <;> simp <;> omega

/-- A compressor with the restriction to end with the only 0. -/
theorem leaf_sentinel {ps : Nat} (hps : 0 < ps) (rc rd : Reading) (c : List UInt8 → Res (List UInt8)) (d : List UInt8 → Res (List (List UInt8)))
    (t : List UInt8) (h : ∀ v, Sentinel v → v.length ≤ 2 * t.length + 1 → t.length + 1 ≤ v.length → (NoEscapes t → v = t ++ [0]) →
      readRestricted sentinelRestr t = .ok v →
      ∃ z chunks, c v = .ok z ∧ d z = .ok chunks ∧ chunks.flatten = v) : LosslessRun (leaf ps sentinelRestr rc rd c d) t := by
  refine run_of_at _ [0] true rfl t (leaf_losslessAt ps hps _ [0] true (canEscape_six _ _ (by simp)) _ _ _ _ t ?_)
  intro v hv
  obtain ⟨h1, h2, h3, h4⟩ := read_form hv
  obtain ⟨z, ch, g1, g2, g3⟩ := h v h1 h2 h3 h4 hv
  exact ⟨z, ch, g1, g2, .inl g3⟩

theorem no255 {t v : List UInt8} (hn : NoEscapes t) (hv : NoEscapes t → v = t ++ [0]) : (255 : UInt8) ∉ v := by
  rw [hv hn]
  simp [hn.2]

theorem via {α : Type} {c : α → Res (List UInt8)} {d : List UInt8 → Res (List UInt8)} {x : α} {v : List UInt8} (h : ∃ z, c x = .ok z ∧ d z = .ok v) :
    ∃ z chunks, c x = .ok z ∧ oneChunk (d z) = .ok chunks ∧ chunks.flatten = v := by
  obtain ⟨z, h1, h2⟩ := h
  exact ⟨z, [v], h1, by simp [oneChunk, h2]; rfl, by simp⟩

theorem esp_any (E : Sys) (hE : E.Ok) (c : EspCoder) (map : Esp.IpdName) (t : List UInt8) (ht : t.length ≤ 2 ^ 30) (hs : c.Safe map E t) :
    ∃ z, c.comp map E t = .ok z ∧ c.decomp E z = .ok t := by
  have h32 : t.length ≤ 2 ^ 32 := Nat.le_trans ht (by decide)
  have hid : ∀ l : List ((Nat × Nat) × Nat), (id l).Perm l := fun l => List.Perm.refl l
  have e : Esp.generateOn (map.ipd E.iter E.espHash) t = Esp.generate id t := Esp.esp_ipd_grammar map hE.iter E.espHash t h32
  have key : ∀ d : Esp.DCoder, ((Esp.generateOn (map.ipd E.iter E.espHash) t).bind fun s => (Esp.sortedEnc d s).bind fun b => .ok (BitO.toBytes b)) =
      Esp.compressSorted d id t := by
    intro d
    rw [e]
    rfl
  cases c with
  | plainSlp =>
    obtain ⟨z, h1, h2⟩ := Esp.esp_lossless hid t h32
    refine ⟨z, ?_, h2⟩
    show Esp.compressOn (map.ipd E.iter E.espHash) t = .ok z
    rw [← h1, Esp.compressOn, e]
    rfl
  | diff =>
    simp only [EspCoder.comp, EspCoder.decomp, EspCoder.dcoder, key]
    exact Esp.esp_sorted_diff_lossless hid t h32
  | sorted d =>
    cases d <;> simp only [EspCoder.comp, EspCoder.decomp, EspCoder.dcoder, key]
    · exact Esp.esp_sorted_plain_lossless hid t h32
    · exact Esp.esp_sorted_huffman_lossless E.std hid t h32
  | mono o d =>
    cases o <;> cases d <;> simp only [EspCoder.comp, EspCoder.decomp, EspCoder.dcoder, key]
    · exact Esp.esp_mono_greedy_plain_lossless hid t h32
    · exact Esp.esp_mono_greedy_huffman_lossless E.std hid t h32
    · exact Esp.esp_mono_greedy_wt_lossless hid t ht
    · exact Esp.esp_mono_optimal_plain_lossless hid t h32
    · exact Esp.esp_mono_optimal_huffman_lossless E.std hid t h32
    · exact Esp.esp_mono_optimal_wt_lossless hid t ht
  | rangeFit wt o =>
    obtain ⟨z, hz⟩ := hs
    refine ⟨z, hz, ?_⟩
    cases wt <;> simp only [EspCoder.comp, EspCoder.decomp, EspCoder.dcoder, key] at hz ⊢
    · exact Esp.esp_range_fit_sound_partial o hid t h32 z hz
    · exact Esp.esp_range_fit_wt_sound_partial o hid t h32 z hz

theorem HashTab.real {κ : Type} [DecidableEq κ] (T : HashTab κ) (n res : Nat) : HT.RealTable (T.tab n res) := by
  cases T with
  | one A d lf => exact .one ..
  | two A1 A2 d lf => exact .two ..

theorem HashTab.total {T : HashTab (Nat × UInt8)} (h : T.Grows) (n res : Nat) : ∃ Q Rel, HT.Total (T.tab n res) undefId Q Rel := by
  obtain ⟨lf, hlf, ⟨hash, rfl⟩ | ⟨hash1, hash2, rfl⟩⟩ := h
  · exact ⟨_, _, HT.Total.beq (b1 := instBEqOfDecidableEq) (b2 := inferInstance) inferInstance inferInstance
      (HT.total_single (HT.good_pow2 hash undefId (Nat.le_refl _)) lf n res hlf (HT.adm_new hash res))⟩
  · exact ⟨_, _, HT.Total.beq (b1 := instBEqOfDecidableEq) (b2 := inferInstance) inferInstance inferInstance
      (HT.total_plus (HT.good_pow2 hash1 undefId (Nat.le_refl _)) (HT.good_pow2 hash2 undefId (Nat.le_refl _)) lf n res hlf
      ⟨by show 1 ≤ 95; decide, by show 95 ≤ 99; decide⟩ (HT.adm_new hash1 res) (HT.adm_pow2 hash2))⟩

theorem lz78_any (n : TrieName) (c : CoderName) (t : List UInt8) (hlen : t.length + 1 < 2 ^ 32 - 1)
    (hlast : c = .bit ∨ c = .ascii ∨ ∀ ch, t.getLast? = some ch → ch.toNat < 128) (h : n.Safe78 c t) :
    ∃ z, lz78Compress (n.impl false t.length (HT.resLz78 t.length)) c.coder 0 t = .ok z ∧ lz78Decompress c.coder z = .ok t := by
  cases n with
  | ptr p => exact lz78_lossless_partial p c t hlen hlast
  | ext => exact lz78_hash_lossless_partial true c t hlen h hlast
  | judy => exact lz78_judy_lossless_partial c t hlen hlast
  | hash T =>
    obtain ⟨h0, hg | ⟨z, hz⟩⟩ := h
    · obtain ⟨b, e1, e2⟩ := lz78_hash_lossless_partial false c t hlen h0 hlast
      obtain ⟨Q, Rel, hT⟩ := T.total hg t.length (HT.resLz78 t.length)
      exact ⟨b, HT.hash_lz78_total hT c.coder t (by unfold undefId; omega) e1, e2⟩
    · exact ⟨z, hz, HT.lz78_hash_real_partial (T.real _ _) c t hlen h0 hlast z hz⟩
  | wordpack T =>
    obtain ⟨hl, hs, z, hz⟩ := h
    refine ⟨z, hz, ?_⟩
    let : DecidableEq Rolling.wordpack.κ := inferInstanceAs (DecidableEq Nat)
    have e0 := (HT.rolling_real Rolling.wordpack (T.real _ _) c.coder t z hl).1 hz
    obtain ⟨b, e1, e2⟩ := Rolling.lz78_rolling_lossless_partial Rolling.wordpack c t hs (by omega) hlast
    rw [e0] at e1
    cases e1
    exact e2
  | karpRabin key T =>
    obtain ⟨hl, hs, z, hz⟩ := h
    refine ⟨z, hz, ?_⟩
    let : DecidableEq (Rolling.rk key).κ := inferInstanceAs (DecidableEq Nat)
    have e0 := (HT.rolling_real (Rolling.rk key) (T.real _ _) c.coder t z hl).1 hz
    obtain ⟨b, e1, e2⟩ := Rolling.lz78_rolling_lossless_partial (Rolling.rk key) c t hs (by omega) hlast
    rw [e0] at e1
    cases e1
    exact e2
  | compact =>
    obtain ⟨h0, z, hz⟩ := h
    have e : HT.resLz78 t.length = 2 * CSH.isqrt t.length := Nat.mul_comm _ _
    simp only [TrieName.impl, e] at hz ⊢
    exact ⟨z, CSH.lz78_csh_lossless_partial c t hlen h0 hlast hz⟩

theorem lzw_any (n : TrieName) (c : CoderName) (t : List UInt8) (hlen : t.length + 257 < 2 ^ 32 - 1) (h : n.SafeW c t) :
    ∃ z, lzwCompress (n.impl false t.length (HT.resLzw t.length)) c.coder 0 t = .ok z ∧ lzwDecompress c.coder 0 z = .ok t := by
  cases n with
  | ptr p => exact lzw_lossless p c t hlen
  | ext => exact lzw_hash_lossless_partial true c t hlen h
  | judy => exact lzw_judy_lossless_partial c t hlen h
  | hash T =>
    obtain ⟨h0, hg | ⟨z, hz⟩⟩ := h
    · obtain ⟨b, e1, e2⟩ := lzw_hash_lossless_partial false c t hlen h0
      obtain ⟨Q, Rel, hT⟩ := T.total hg t.length (HT.resLzw t.length)
      exact ⟨b, HT.hash_lzw_total hT c.coder t (by unfold undefId; omega) e1, e2⟩
    · exact ⟨z, hz, HT.lzw_hash_real_partial (T.real _ _) c t hlen h0 z hz⟩
  | wordpack T =>
    obtain ⟨⟨hr, hs⟩, z, hz⟩ := h
    refine ⟨z, hz, ?_⟩
    let : DecidableEq Rolling.wordpack.κ := inferInstanceAs (DecidableEq Nat)
    have e0 := (HT.rolling_real Rolling.wordpack (T.real _ _) c.coder t z (by unfold undefId; omega)).2 hz
    obtain ⟨b, e1, e2⟩ := Rolling.lzw_rolling_lossless_partial Rolling.wordpack c t hr hs (by unfold undefId; omega)
    rw [e0] at e1
    cases e1
    exact e2
  | karpRabin key T =>
    obtain ⟨⟨hr, hs⟩, z, hz⟩ := h
    refine ⟨z, hz, ?_⟩
    let : DecidableEq (Rolling.rk key).κ := inferInstanceAs (DecidableEq Nat)
    have e0 := (HT.rolling_real (Rolling.rk key) (T.real _ _) c.coder t z (by unfold undefId; omega)).2 hz
    obtain ⟨b, e1, e2⟩ := Rolling.lzw_rolling_lossless_partial (Rolling.rk key) c t hr hs (by unfold undefId; omega)
    rw [e0] at e1
    cases e1
    exact e2
  | compact =>
    obtain ⟨h0, h1, z, hz⟩ := h
    exact ⟨z, hz, CSH.lzw_csh_lossless_partial c t h1 h0 hz⟩

theorem lit_any (E : Sys) (c : LitEnc) (t : List UInt8) (h : c.Safe t) : ∃ z, c.comp E t = .ok z ∧ c.decomp z = .ok t := by
  cases c with
  | plain c => exact ⟨_, rfl, literal_lossless _ _⟩
  | huffman => exact encode_huffman_lossless_partial E.std t h.1 h.2
  | arithmetic => exact Arith.arithmetic_lossless_partial t h.2.1 h.1 h.2.2.1 h.2.2.2
  | sle k => exact encode_sle_lossless_partial k h.1 h.2.1 t h.2.2

/-- **C75, part.** Every registered compressor of the list `Algo`, with all its options, and every chain of them, gives back every text that is
`Safe` for it: compressed from a string, a file or a stream, decompressed from a string, a file or a stream. Missing: the texts that are
not `Safe`, for most of which the code is wrong. -/
theorem algo_lossless_partial (E : Sys) (hE : E.Ok) (a : Algo) (t : List UInt8) (h : a.Safe E t) : LosslessRun (a.comp E) t := by
  induction a generalizing t with
  | noop m d => exact leaf_plain hE.page _ _ _ _ _ ⟨_, _, rfl, rfl, by simp [noop_lossless]⟩
  | rle o => exact leaf_plain hE.page _ _ _ _ _ (via (rle_lossless_partial o t h.2 h.1))
  | mtf => exact leaf_plain hE.page _ _ _ _ _ ⟨_, _, rfl, rfl, by simp [(mtf_lossless t).1]⟩
  | literal c => exact leaf_plain hE.page _ _ _ _ _ (via (lit_any E c t h))
  | lz78 p c => exact leaf_plain hE.page _ _ _ _ _ (via (c := fun v => lz78Compress _ _ _ v) (lz78_any p c t h.1 h.2.1 h.2.2))
  | lzw p c => exact leaf_plain hE.page _ _ _ _ _ (via (c := fun v => lzwCompress _ _ _ v) (lzw_any p c t h.1 h.2))
  | lzss c w th => exact leaf_plain hE.page _ _ _ _ _ (via (lzss_window_lossless_partial c w th t h.1 h.2.1 h.2.2))
  | lzssLcp c pk th =>
    refine leaf_sentinel hE.page _ _ _ _ _ fun v hs hl _ hn hv => via ?_
    have hlen : v.length < 2 ^ 32 := Nat.lt_of_le_of_lt hl h.2.1
    cases c with
    | plain c => exact lzss_lcp_lossless c pk th v _ h.1 (hE.sa v hs) hs hlen
    | huffman =>
      obtain ⟨A, fs, z, g1, g2, g3, g4⟩ := lzss_lcp_huffman_lossless_partial E.std pk th v _ h.1 (hE.sa v hs) hs hlen (no255 h.2.2 hn)
      exact ⟨z, by simp only [RefCoder.lzssComp, g1, g2, g3, Except.bind], g4⟩
    | sle k =>
      obtain ⟨A, fs, z, g1, g2, g3, g4⟩ := SLE.lzss_lcp_sle_lossless_partial k h.2.2.1 h.2.2.2 pk th v _ h.1 (hE.sa v hs) hs hlen
      exact ⟨z, by simp only [RefCoder.lzssComp, g1, g2, g3, Except.bind], g4⟩
  | lzssTextDS c lk ik mode th =>
    refine leaf_sentinel hE.page _ _ _ _ _ fun v hs hl _ hn hv => via (c := fun v => TObj.lzssWith _ ⟨v, _, _, _⟩ _ _) ?_
    exact TObj.lzss_lcp_textds_lossless c ⟨v, E.saOf v, lk, ik⟩ mode th h.1 (hE.sa v hs) hs (Nat.lt_of_le_of_lt hl h.2.1) h.2.2
  | lcpcomp c s d flat pk th =>
    obtain ⟨h1, h2, h3, h4, h5⟩ := h
    refine leaf_sentinel hE.page _ _ _ _ _ fun v hs hl _ hn hv => via ?_
    have h31 : v.length ≤ 2 ^ 31 := Nat.le_of_lt (Nat.lt_of_le_of_lt hl h4)
    have hlen : v.length < 2 ^ 32 := Nat.lt_of_le_of_lt h31 (by decide)
    cases c with
    | plain c => exact LC.lcpcomp_lossless_partial c s h2 d h3 flat pk th v _ h1 (hE.sa v hs) hs hlen (fun _ => h31)
    | huffman =>
      obtain ⟨fs, z, g1, g2, g3⟩ := LC.lcpcomp_huffman_lossless_partial E.std s h2 d h3 flat pk th v _ h1 (hE.sa v hs) hs hlen (fun _ => h31) (no255 h5 hn)
      exact ⟨z, by simp only [RefCoder.lcpComp, g1, g2, Except.bind], g3⟩
    | sle k =>
      obtain ⟨fs, z, g1, g2, g3⟩ := LC.lcpcomp_sle_lossless_partial k h5.1 h5.2 s h2 d h3 flat pk th v _ h1 (hE.sa v hs) hs hlen (fun _ => h31)
      exact ⟨z, by simp only [RefCoder.lcpComp, g1, g2, Except.bind], g3⟩
  | lz78u c1 c2 th =>
    obtain ⟨h1, h2, h3⟩ := h
    refine leaf_sentinel hE.page _ _ _ _ _ fun v hs hl _ hn hv => via (c := fun v => U78.compress _ _ _ _ v) ?_
    exact U78.lz78u_lossless_wide c1 c2 th v hs (Nat.lt_of_le_of_lt hl h2) h1 (h3 v hv)
  | lz78uHuffman c1 th =>
    obtain ⟨h1, h2, h3, h4⟩ := h
    refine leaf_sentinel hE.page _ _ _ _ _ fun v hs hl _ hn hv => via (c := fun v => U78.compressHuff _ _ _ _ v) ?_
    obtain ⟨fs, g1, g2⟩ := U78.lz78u_huffman_lossless_partial E.std c1 th v hs (Nat.lt_of_le_of_lt hl h2) h1 (no255 h3 hn)
    have hv' := hn h3
    subst hv'
    obtain ⟨g3, g4⟩ := h4 fs (by simpa using g1)
    obtain ⟨z, g5, g6⟩ := g2 g3
    exact ⟨z, g5, g6 g4⟩
  | repairHuffman m => exact leaf_plain hE.page _ _ _ _ _ (via (RePair.repair_huffman_lossless_partial E.std m t h.1 h.2.1 h.2.2.1 h.2.2.2))
  | repair c m => exact leaf_plain hE.page _ _ _ _ _ (via (RePair.repair_lossless c m t h.1 h.2))
  | bwt => exact bwtComp_lossless E.ps hE.page E.saOf hE.sa t h.1 h.2
  | esp c map => exact leaf_plain hE.page _ _ _ _ _ (via (esp_any E hE c map t h.1 h.2))
  | lfsEsa l c1 diff pk =>
    obtain ⟨h1, h2⟩ := h
    refine leaf_sentinel hE.page _ _ _ _ _ fun v hs hl _ hn hv => via (c := fun v => Lfs.compressESA _ _ _ _ _ v _) ?_
    have hlen : v.length < 2 ^ 32 := Nat.lt_of_le_of_lt hl h1
    cases l with
    | plain c => exact Lfs.lfs_esa_lossless E.std c c1 diff pk v _ (hE.sa v hs) hs hlen
    | huffman => exact Lfs.lfs_esa_huffman_lossless_partial E.std c1 diff pk v _ (hE.sa v hs) hs hlen (no255 h2 hn)
  | lfsBst l c1 m =>
    obtain ⟨h0, h1, h2⟩ := h
    refine leaf_sentinel hE.page _ _ _ _ _ fun v hs hl _ hn hv => via ?_
    have hlen : v.length < 2 ^ 32 := Nat.lt_of_le_of_lt hl h1
    cases l with
    | plain c => exact Lfs.lfs_bst_lossless_partial m h0 E.std c c1 v hlen
    | huffman => exact Lfs.lfs_bst_huffman_lossless_partial m h0 E.std c1 v hlen (no255 h2 hn)
  | lfsSt l c1 m =>
    obtain ⟨h0, h1, h2, h3⟩ := h
    refine leaf_sentinel hE.page _ _ _ _ _ fun v hs hl _ hn hv => via (c := fun v => Lfs.compressSt _ _ _ _ _ v) ?_
    have hlen : v.length < 2 ^ 32 := Nat.lt_of_le_of_lt hl h1
    cases l with
    | plain c => exact Lfs.lfs_st_lossless_partial _ m h0 E.std c c1 v (hE.kids v) (h3 v hv) hlen
    | huffman => exact Lfs.lfs_st_huffman_lossless_partial _ m h0 E.std c1 v (hE.kids v) (h3 v hv) hlen (no255 h2 hn)
  | lfsSimSt l c1 m =>
    obtain ⟨h0, h1, h2⟩ := h
    refine leaf_sentinel hE.page _ _ _ _ _ fun v hs hl _ hn hv => via (c := fun v => Lfs.compressTree _ _ _ _ _ _ v) ?_
    have hlen : v.length < 2 ^ 32 := Nat.lt_of_le_of_lt hl h1
    obtain ⟨label, ht⟩ := hE.tree v hs
    cases l with
    | plain c => exact Lfs.lfs_tree_lossless_partial .simSt m h0 E.std c c1 v _ label ht hlen
    | huffman => exact Lfs.lfs_tree_huffman_lossless_partial .simSt m h0 E.std c1 v _ label ht hlen (no255 h2 hn)
  | lfs2 exact l c1 m =>
    obtain ⟨h0, hb, h1, h2⟩ := h
    refine leaf_sentinel hE.page _ _ _ _ _ fun v hs hl hg hn hv => via (c := fun v => (Lfs2.compress _ _ _ _ _ _ _ v).map _) ?_
    have hlen : v.length < 2 ^ 32 := Nat.lt_of_le_of_lt hl h1
    obtain ⟨label, ht⟩ := hE.tree v hs
    have hB : Lfs2.Enough (.lfs2 exact) m v := by
      rcases hb with hb | hb
      · refine Or.inl ?_
        have := List.length_pos_iff.2 hb
        omega
      · exact Or.inr hb
    cases l with
    | plain c =>
      obtain ⟨z, m', g1, g2⟩ := Lfs2.lfs2_lossless_partial (.lfs2 exact) m h0 E.std c c1 v _ label ht hs hlen hB
      exact ⟨z, by simp only [LitName.lit, g1]; rfl, g2⟩
    | huffman =>
      obtain ⟨z, m', g1, g2⟩ := Lfs2.lfs2_huffman_lossless_partial (.lfs2 exact) m h0 E.std c1 v _ label ht hs hlen hB (no255 h2 hn)
      exact ⟨z, by simp only [LitName.lit, g1]; rfl, g2⟩
  | lfs2bst l c1 m =>
    obtain ⟨h0, hb, h1, h2⟩ := h
    refine leaf_sentinel hE.page _ _ _ _ _ fun v hs hl hg hn hv => via (c := fun v => (Lfs2.compressBst _ _ _ _ _ v).map _) ?_
    have hlen : v.length < 2 ^ 32 := Nat.lt_of_le_of_lt hl h1
    have hB : Lfs2.Builds m v := by
      rcases hb with hb | hb
      · refine Or.inl ?_
        have := List.length_pos_iff.2 hb
        omega
      · cases t with
        | nil =>
          right
          simp only [List.length_nil] at hl
          omega
        | cons a t =>
          refine Or.inl ?_
          simp only [List.length_cons] at hg
          omega
    cases l with
    | plain c =>
      obtain ⟨z, m', g1, g2⟩ := Lfs2.lfs2bst_lossless_partial m h0 E.std c c1 v hs hB hlen
      exact ⟨z, by simp only [LitName.lit, g1]; rfl, g2⟩
    | huffman =>
      obtain ⟨z, m', g1, g2⟩ := Lfs2.lfs2bst_huffman_lossless_partial m h0 E.std c1 v hs hB hlen (no255 h2 hn)
      exact ⟨z, by simp only [LitName.lit, g1]; rfl, g2⟩
  | chain a b iha ihb => exact chain_run _ _ t (iha t h.1) fun z hz => ihb z (h.2 z hz)

/-- **C75 with the driver.** `tdc -a id file` and then `tdc -d` give back the file, for every algorithm of the list, every chain, every identifier of at most
1023 characters without `%` that the registry resolves to it. -/
theorem algo_driver_roundtrip_partial (E : Sys) (hE : E.Ok) (a : Algo) (select : List UInt8 → Res Comp) (id t : List UInt8) (src : Source)
    (hsrc : src.bytes = t) (hsel : select id = .ok (a.comp E)) (hid : percent ∉ id) (hlen : id.length ≤ 1023) (h : a.Safe E t) :
    ∃ file, driverCompress (a.comp E) id false src = .ok file ∧ ∀ dst : Source, dst.bytes = file → driverDecompress E.ps select none dst = .ok t :=
  driver_header_roundtrip_partial E.ps hE.page (a.comp E) select id t src hsrc hsel hid hlen (algo_lossless_partial E hE a t h)

/-! ## The Huffman coder behind restrictions -/

/-- If no character depends on itself, every character of the text also occurs as a literal. -/
theorem uncovered_of_resolvable {text : List UInt8} {fs : List Factor} (hr : Resolvable text fs) {p : Nat} {c : UInt8} (hp : text[p]? = some c) :
    ∃ q : Nat, text[q]? = some c ∧ Uncovered fs q := by
  obtain ⟨rank, hrank⟩ := hr.acyclic
  induction hn : rank p using Nat.strongRecOn generalizing p with
  | ind n ih =>
    by_cases hu : Uncovered fs p
    · exact ⟨p, hp, hu⟩
    · simp only [Uncovered, Classical.not_forall, not_not] at hu
      obtain ⟨f, hf, h1, h2⟩ := hu
      have e1 := hr.eq f hf (p - f.pos) (by omega)
      have e2 := hrank f hf (p - f.pos) (by omega)
      rw [show f.pos + (p - f.pos) = p by omega] at e1 e2
      exact ih _ (by omega) (e1.trans hp) rfl

theorem literals_of_resolvable {text : List UInt8} {fs : List Factor} (ho : FactorsOrdered text.length 0 fs) (hr : Resolvable text fs) :
    ∃ ls, textLiterals text fs = .ok ls ∧ ls.length ≤ text.length ∧ ∀ c ∈ text, c ∈ ls.map Prod.fst := by
  classical
  refine ⟨_, text_literals_spec text fs ho, ?_, ?_⟩
  · refine Nat.le_trans (List.length_filterMap_le _ _) (Nat.le_trans (List.length_filter_le _ _) ?_)
    simp
  · intro c hc
    obtain ⟨p, hp⟩ := List.mem_iff_getElem?.1 hc
    obtain ⟨q, hq, hu⟩ := uncovered_of_resolvable hr hp
    have hql : q < text.length := by
      by_contra h
      rw [List.getElem?_eq_none (by omega)] at hq
      simp at hq
    simp only [List.mem_map, List.mem_filterMap, List.mem_filter, List.mem_range, decide_eq_true_eq]
    exact ⟨(c, q), ⟨q, ⟨hql, hu⟩, by rw [hq]; rfl⟩, rfl⟩

theorem resolvable_of_match {text : List UInt8} {fs : List Factor} (h : FactorsMatch text fs) : Resolvable text fs :=
  ⟨fun f hf k hk => (h f hf).2 k hk, id, fun f hf k _ => by have := (h f hf).1; simp only [id]; omega⟩

theorem huff_encoder_255 (std : StdLib) (ls : List UInt8) (hls : ls.length < 2 ^ 32) (h255 : (255 : UInt8) ∈ ls) (h0 : (0 : UInt8) ∈ ls) (x : _) :
    Huff.encoder std ls ≠ .ok x := by
  intro h
  have := huffman_byte255_broken std ls [] hls h255 0 h0 (by decide)
  simp only [Huff.writeFile, h] at this
  exact this _ rfl

theorem lzssHuff_255 (std : StdLib) (text : List UInt8) (fs : List Factor) (hs : Sentinel text) (hlen : text.length < 2 ^ 32) (h255 : (255 : UInt8) ∈ text)
    (ho : FactorsOrdered text.length 0 fs) (hr : Resolvable text fs) (z : List UInt8) : lzssHuffEncode std text fs ≠ .ok z := by
  obtain ⟨ls, h1, h2, h3⟩ := literals_of_resolvable ho hr
  have h0 : (0 : UInt8) ∈ text := by
    obtain ⟨u, rfl, _⟩ := hs
    simp
  unfold lzssHuffEncode
  rw [h1]
  exact huffman_byte255_broken std _ _ (by simpa using Nat.lt_of_le_of_lt h2 hlen) (h3 _ h255) 0 (h3 _ h0) (by decide) z

/-- What is read contains the escape byte 255 if the text needs escaping. -/
theorem read_esc {t v : List UInt8} (hv : readRestricted sentinelRestr t = .ok v) (h : ¬ NoEscapes t) : (255 : UInt8) ∈ v := by
  have hc : CanEscape (Restr.make [0] true) := canEscape_six _ _ (by simp)
  obtain ⟨f, u, ht, hf, hu, hfn, hun, ho⟩ := tableOf_of (restr_make_nodup [0] true) hc
  have hne : (Restr.make [0] true).esc ≠ [] := fun h => by simpa using make_esc_nil.1 h
  have ho := ho.resolve_left (fun h => hne h.1)
  obtain ⟨em, hem, heb⟩ := ho.escEm
  have he : f.escapeByte = 255 := by
    rw [← heb]
    exact escapeByte_255 hne (by rw [mem_make]; simp) hem
  rw [show sentinelRestr = Restr.make [0] true from rfl, readRestricted_spec ht hf hfn t] at hv
  simp only [Except.ok.injEq] at hv
  obtain ⟨b, hb, hb'⟩ : ∃ b ∈ t, b = 0 ∨ b = 255 := by
    by_contra hx
    simp only [not_exists, not_and, not_or] at hx
    exact h ⟨fun h0 => (hx _ h0).1 rfl, fun h0 => (hx _ h0).2 rfl⟩
  have hfl := ho.flag b
  rw [if_pos (by
    rw [he, mem_make]
    rcases hb' with rfl | rfl
    · exact .inr (by simp)
    · exact .inl rfl)] at hfl
  rw [← hv, restricted]
  refine List.mem_append_left _ ?_
  rw [escList, List.mem_flatMap]
  exact ⟨b, hb, by simp [escByte, hfl, he]⟩

/-- **C75, negation.** With the Huffman coder, `lzss_lcp`, `lcpcomp` and `lfs_comp` compress no text that contains a byte 0 or a byte 255: the
input is escaped with byte 255, and the Huffman coder writes out of its bounds as soon as this byte and the terminator are announced. -/
theorem huffman_escaped_broken (E : Sys) (hE : E.Ok) (a : Algo) (t : List UInt8) (ht : ¬ NoEscapes t) (hlen : 2 * t.length + 1 < 2 ^ 31)
    (ha : (∃ pk th, 1 ≤ th ∧ a = .lzssLcp .huffman pk th) ∨ (∃ s d flat pk th, 1 ≤ th ∧ s ≠ .maxHeap ∧ a = .lcpcomp .huffman s d flat pk th) ∨
      (∃ c1 diff pk, a = .lfsEsa .huffman c1 diff pk) ∨ (∃ c1 m, a = .lfsBst .huffman c1 m))
    (src : Source) (hsrc : src.bytes = t) (z : List UInt8) : runCompress (a.comp E) (Inp.ofSource src) ≠ .ok z := by
  have key : ∀ c d, (∀ v, Sentinel v → v.length < 2 ^ 31 → (255 : UInt8) ∈ v → c v ≠ .ok z) →
      runCompress (leaf E.ps sentinelRestr .view .stream c d) (Inp.ofSource src) ≠ .ok z := by
    intro c d hcv
    have hor : unrestricted.or sentinelRestr = sentinelRestr := by
      rw [unrestricted_eq]
      exact (restr_or_algebra [0] [] [] true false false).2.2.2.2
    obtain ⟨v, hv, hr⟩ := read_whole E.ps hE.page [0] true (canEscape_six _ _ (by simp)) .view src
    rw [hsrc] at hv
    obtain ⟨h1, h2, _, _⟩ := read_form hv
    have h3 := read_esc hv ht
    unfold runCompress
    rw [if_neg (show ¬ (leaf E.ps sentinelRestr .view .stream c d).restr.hasNone = true by
      simp [leaf, sentinelRestr, Restr.hasNone, show (Restr.make [0] true).nt = true from rfl])]
    have hi : (Inp.ofSource src).restrict (leaf E.ps sentinelRestr .view .stream c d).restr = ⟨src, Restr.make [0] true, 0, none⟩ := by
      show Inp.restrict ⟨src, unrestricted, 0, none⟩ sentinelRestr = _
      simp only [Inp.restrict, hor]
      rfl
    rw [hi]
    simp only [leaf, hr]
    exact hcv v h1 (by omega) h3
  rcases ha with ⟨pk, th, hth, rfl⟩ | ⟨s, d, flat, pk, th, hth, hs, rfl⟩ | ⟨c1, diff, pk, rfl⟩ | ⟨c1, m, rfl⟩
  · refine key _ _ fun v hv hl h255 => ?_
    obtain ⟨A, fs, e1, e2, -, ho, hm⟩ := lzss_lcp_factors pk th v _ hth (hE.sa v hv) hv (by omega)
    simp only [RefCoder.lzssComp, e1, e2, Except.bind]
    exact lzssHuff_255 E.std v fs hv (by omega) h255 ho (resolvable_of_match hm) z
  · refine key _ _ fun v hv hl h255 => ?_
    obtain ⟨fs, e, ho, hr, -, -⟩ := LC.lcpFactorsOf_spec s hs flat pk th v _ hth (hE.sa v hv) hv (by omega) (fun _ => by omega)
    simp only [RefCoder.lcpComp, e, Except.bind]
    exact lzssHuff_255 E.std v fs hv (by omega) h255 ho hr z
  all_goals
    refine key _ _ fun v hv hl h255 => ?_
    have h0 : (0 : UInt8) ∈ v := by
      obtain ⟨u, rfl, _⟩ := hv
      simp
    have hw : ∀ rules, Lfs.compressWith E.std .huffman c1.coder v rules ≠ .ok z := by
      intro rules hx
      unfold Lfs.compressWith at hx
      cases h1 : (if v.length > 1 then rules else .ok ([], [])) with
      | error e => rw [h1] at hx; cases hx
      | ok r =>
        rw [h1] at hx
        simp only [Except.bind] at hx
        cases h2 : Lfs.encodeToks v r.1 r.2 with
        | error e => rw [h2] at hx; cases hx
        | ok ts =>
          rw [h2] at hx
          simp only [Lfs.write] at hx
          cases h3 : Huff.encoder E.std v with
          | error e => rw [h3] at hx; cases hx
          | ok m => exact huff_encoder_255 E.std v (by omega) h255 h0 m h3
    exact hw _


/-! ## `bwt` and byte 255 -/

/-- the bytes that `push_unescape` writes -/
theorem push_mem {u : FastUnesc} {S : UInt8 → Prop} (h0 : S 0) (l : List UInt8) : ∀ s : PushState, (∀ x ∈ s.out, S x) → (∀ x ∈ l, S x ∧ S (u.map x)) →
    ∀ x ∈ (l.foldl (pushUnescape u) s).out, S x := by
  induction l with
  | nil => intro s hs _; exact hs
  | cons c l ih =>
    intro s hs hl
    rw [List.foldl_cons]
    refine ih _ ?_ (fun x hx => hl x (List.mem_cons_of_mem _ hx))
    obtain ⟨k1, k2⟩ := hl c (List.mem_cons_self ..)
    have ho : ∀ x ∈ (if s.sawNull = true then s.out ++ [0] else s.out), S x := by
      split
      · intro x hx
        rcases List.mem_append.1 hx with hx | hx
        · exact hs x hx
        · rw [List.mem_singleton.1 hx]; exact h0
      · exact hs
    unfold pushUnescape
    split
    · intro x hx
      rcases List.mem_append.1 hx with hx | hx
      · exact ho x hx
      · rw [List.mem_singleton.1 hx]; exact k2
    · split
      · exact hs
      · split
        · exact ho
        · intro x hx
          rcases List.mem_append.1 hx with hx | hx
          · exact ho x hx
          · rw [List.mem_singleton.1 hx]; exact k1

theorem unesc_table : ∃ u, fastUnescOf sentinelRestr = .ok u ∧ u.map 0 = 0 ∧ u.map 255 = 255 := by
  have h : (match fastUnescOf sentinelRestr with | .ok u => u.map 0 == 0 && u.map 255 == 255 | .error _ => false) = true := by decide +kernel
  cases hu : fastUnescOf sentinelRestr with
  | error e => rw [hu] at h; simp at h
  | ok u => rw [hu] at h; exact ⟨u, rfl, by simpa using h⟩

theorem esc_table : ∃ f, fastEscOf sentinelRestr = .ok f ∧ f.map 255 = 255 := by
  have h : (match fastEscOf sentinelRestr with | .ok u => u.map 255 == 255 | .error _ => false) = true := by decide +kernel
  cases hu : fastEscOf sentinelRestr with
  | error e => rw [hu] at h; simp at h
  | ok u => rw [hu] at h; exact ⟨u, rfl, by simpa using h⟩

/-- The restricted form of a text without the bytes 0 and 254 that ends with byte 255. -/
theorem read_255 {u v : List UInt8} (h0 : (0 : UInt8) ∉ u) (h254 : (254 : UInt8) ∉ u) (hv : readRestricted sentinelRestr (u ++ [255]) = .ok v) :
    ∃ w, v = w ++ [255, 0] ∧ (0 : UInt8) ∉ w ∧ (254 : UInt8) ∉ w := by
  have hc : CanEscape (Restr.make [0] true) := canEscape_six _ _ (by simp)
  obtain ⟨f, u', ht, hf, hu, hfn, hun, ho⟩ := tableOf_of (restr_make_nodup [0] true) hc
  have hne : (Restr.make [0] true).esc ≠ [] := fun h => by simpa using make_esc_nil.1 h
  have ho := ho.resolve_left (fun h => hne h.1)
  obtain ⟨em, hem, heb⟩ := ho.escEm
  have he : f.escapeByte = 255 := by
    rw [← heb]
    exact escapeByte_255 hne (by rw [mem_make]; simp) hem
  obtain ⟨f', hf', hm⟩ := esc_table
  have : f' = f := by
    rw [show fastEscOf sentinelRestr = .ok f from hf] at hf'
    simpa using hf'.symm
  subst this
  rw [show sentinelRestr = Restr.make [0] true from rfl, readRestricted_spec ht hf hfn] at hv
  simp only [Except.ok.injEq] at hv
  have e255 : escByte f' 255 = [255, 255] := by
    have hfl := ho.flag 255
    rw [if_pos (.inl he.symm)] at hfl
    simp [escByte, hfl, he, hm]
  refine ⟨escList f' u ++ [255], ?_, ?_, ?_⟩
  · rw [← hv, restricted, escList, List.flatMap_append, List.flatMap_singleton, e255]
    show _ ++ [0] = _
    simp [escList]
  all_goals
    simp only [List.mem_append, List.mem_singleton, escList, List.mem_flatMap, not_or]
    refine ⟨?_, by decide⟩
    rintro ⟨b, hb, hx⟩
    by_cases hb' : b = 255
    · rw [hb', e255] at hx
      exact absurd hx (by decide)
    · have hb2 : ¬ (b = f'.escapeByte ∨ b ∈ (Restr.make [0] true).esc) := by
        rw [he, mem_make]
        rintro (h | h)
        · exact hb' h
        · simp only [List.mem_singleton] at h
          exact h0 (h ▸ hb)
      have hfl := ho.flag b
      rw [if_neg hb2] at hfl
      simp only [escByte, hfl, ho.mapId b hb2] at hx
      simp only [ne_eq, not_true, if_false, List.mem_singleton] at hx
      first | exact h0 (hx ▸ hb) | exact h254 (hx ▸ hb)

/-- **C75, negation.** `bwt` loses every text that ends with byte 255 and otherwise has no byte 0 and no byte 254 but at least one other byte: the
compressor succeeds, and what the decompressor delivers consists of bytes 0 and 255. -/
theorem bwt_end_to_end_broken (E : Sys) (hE : E.Ok) (u : List UInt8) (h0 : (0 : UInt8) ∉ u) (h254 : (254 : UInt8) ∉ u) (c : UInt8) (hc : c ∈ u) (hc' : c ≠ 255) :
    ∃ z s, (∀ src : Source, src.bytes = u ++ [255] → runCompress (Algo.bwt.comp E) (Inp.ofSource src) = .ok z) ∧
      (∀ src : Source, src.bytes = z → runDecompress (Algo.bwt.comp E) (Inp.ofSource src) unrestricted = .ok s) ∧ s ≠ u ++ [255] := by
  have hor : unrestricted.or sentinelRestr = sentinelRestr := by
    rw [unrestricted_eq]
    exact (restr_or_algebra [0] [] [] true false false).2.2.2.2
  have hnn : ¬ (Algo.bwt.comp E).restr.hasNone = true := by
    simp [Algo.comp, leaf, sentinelRestr, Restr.hasNone, show (Restr.make [0] true).nt = true from rfl]
  obtain ⟨v, -, -, -, -, hv⟩ := restrict_agree_partial E.ps hE.page [0] true (canEscape_six _ _ (by simp)) (u ++ [255])
  obtain ⟨w, hw, hw0, hw254⟩ := read_255 h0 h254 hv
  have hs : Sentinel v := (read_form hv).1
  subst hw
  obtain ⟨z, hz1, hz2⟩ := bwt_255_broken w _ (hE.sa _ hs) hw0 hw254
  obtain ⟨ut, hu, hu0, hu255⟩ := unesc_table
  have hd : bwtDecompress z = .ok (List.replicate (w.length + 1) 255 ++ [0]) := by
    simp [bwtDecompress, hz2]
  refine ⟨z, ([List.replicate (w.length + 1) 255 ++ [0]].foldl (fun s chunk => chunk.foldl (pushUnescape ut) s) (⟨[], false, false⟩ : PushState)).out, ?_, ?_, ?_⟩
  · intro src hsrc
    obtain ⟨v', hv', hr⟩ := read_whole E.ps hE.page [0] true (canEscape_six _ _ (by simp)) .view src
    rw [hsrc, hv] at hv'
    simp only [Except.ok.injEq] at hv'
    subst hv'
    unfold runCompress
    rw [if_neg hnn]
    have hi : (Inp.ofSource src).restrict (Algo.bwt.comp E).restr = ⟨src, Restr.make [0] true, 0, none⟩ := by
      show Inp.restrict ⟨src, unrestricted, 0, none⟩ sentinelRestr = _
      simp only [Inp.restrict, hor]
      rfl
    rw [hi]
    simp only [Algo.comp, leaf, hr]
    exact hz1
  · intro src hsrc
    unfold runDecompress
    rw [if_neg hnn, show (Algo.bwt.comp E).restr = sentinelRestr from rfl, hor]
    have := read_suffix E.ps hE.page .view src 0 (Nat.zero_le _)
    simp only [List.drop_zero, hsrc] at this
    show (match Inp.read E.ps .view ⟨src, unrestricted, 0, none⟩ with
      | .error e => (.error e : Res (List UInt8))
      | .ok v => match oneChunk (bwtDecompress v) with
        | .error e => .error e
        | .ok chunks => writeUnrestricted sentinelRestr chunks) = _
    rw [this]
    simp only [hd, oneChunk, Except.map, writeUnrestricted, hu]
    rw [if_neg (show ¬ sentinelRestr.hasNone = true from hnn)]
  · intro hx
    have := push_mem (u := ut) (S := fun x => x = 0 ∨ x = 255) (.inl rfl) (List.replicate (w.length + 1) 255 ++ [0]) ⟨[], false, false⟩ (by simp) (by
      intro x hx
      rcases List.mem_append.1 hx with hx | hx
      · rw [(List.mem_replicate.1 hx).2, hu255]
        exact ⟨.inr rfl, .inr rfl⟩
      · rw [List.mem_singleton.1 hx, hu0]
        exact ⟨.inl rfl, .inl rfl⟩)
    have hcm : c ∈ u ++ [255] := List.mem_append_left _ hc
    rw [← hx] at hcm
    rcases this c hcm with h | h
    · exact h0 (h ▸ hc)
    · exact hc' h

/-! ## Witnesses -/

/-- There are such surroundings. -/
theorem sys_exists : ∃ E : Sys, E.Ok := by
  classical
  have hk : ∀ v, ∃ ks, Lfs.Orders ks v := Lfs.orders_exist
  have ht : ∀ v, ∃ t label, Lfs.SoundTree v t label := fun v => by
    obtain ⟨t, label, -, h, -⟩ := Lfs.stTree_ok (hk v).choose_spec
    exact ⟨t, label, h⟩
  refine ⟨⟨4096, fun t => if h : ∃ sa, IsSA t sa then h.choose else [], stdSorted, id, fun _ k => k.1 + k.2, fun v => (hk v).choose, fun v => (ht v).choose⟩,
    ⟨(by show 0 < 4096; decide), fun t _ => ?_, fun l => List.Perm.refl l, fun v => (hk v).choose_spec, fun v _ => (ht v).choose_spec⟩⟩
  have h := exists_isSA t
  simp only [h, dif_pos]
  exact h.choose_spec

/-- "abcabcabc" and a selection of algorithms -/
example (E : Sys) (pk : Packs) (hash : Nat × UInt8 → Nat) : ∀ a ∈ [Algo.rle 0, .lz78 (.ptr .binary) .bit, .lz78 .ext .gamma, .lz78 .judy .gamma, .lzw .judy .delta,
    .lz78 (.hash (.one (HT.confPow2 hash) (100 * undefId + 4 + 2) 30)) .bit, .lzw (.ptr .ternary) .gamma, .lzss .ascii 16 3, .lzssLcp .huffman pk 2,
    .lzssTextDS .bit .compressed (.sparse 3) .delayed 2, .literal .huffman, .literal .arithmetic, .literal (.sle 3), .repairHuffman 5,
    .lcpcomp .huffman .plcp .compact true pk 5, .repair .delta 0, .bwt, .esp (.mono true .wavelet) .dynamicHash, .lfsBst .huffman .gamma 5,
    .lfsSimSt .huffman .bit 3, .lfs2 true .huffman .delta 2], a.Safe E [97, 98, 99, 97, 98, 99, 97, 98, 99] := by
  have hg : HashTab.Grows (.one (HT.confPow2 hash) (100 * undefId + 4 + 2) 30) := ⟨30, by decide, .inl ⟨hash, rfl⟩⟩
  simp [Algo.Safe, RefCoder.Safe, LitName.Safe, LitEnc.Safe, EspCoder.Safe, TrieName.Safe78, TrieName.SafeW, NoEscapes, EndsFFFF, LC.DecName.Ok, hg]
  intro x hx
  have := congrArg List.getLast? hx
  simp at this

/-- Runs with the tries that need not return: two tables the second of which cannot grow, a rolling hash function, the compact trie. -/
example (E : Sys) : (Algo.lz78 .compact .bit).Safe E [97, 98, 97, 98, 97, 97, 98, 97, 98, 98, 97, 99] ∧
    (Algo.lz78 (.hash (.two (HT.confPow2 HT.mix) (HT.confDirect HT.mix) 20 30)) .bit).Safe E [97, 98, 99, 97, 98, 99, 100, 101] := by
  have ok : ∀ r : Res (List UInt8), r.isOk = true → ∃ z, r = .ok z := fun r h => by
    cases r with
    | ok z => exact ⟨z, rfl⟩
    | error e => cases h
  exact ⟨⟨by decide, .inl rfl, by decide, ok _ (by decide +kernel)⟩, ⟨by decide, .inl rfl, by decide, .inr (ok _ (by decide +kernel))⟩⟩

/-- a chain: `chain(mtf, lzw)`, whose second part meets its condition as the first keeps the length -/
example (E : Sys) (hE : E.Ok) (t : List UInt8) (ht : t.length < 2 ^ 20) : (Algo.chain (.noop true false) (.lzw (.ptr .binary) .bit)).Safe E t := by
  refine ⟨trivial, fun z hz => ?_⟩
  have h := algo_lossless_partial E hE (.noop true false) t trivial
  have : z = t := by
    have hr := read_suffix E.ps hE.page .stream (.view t) 0 (Nat.zero_le _)
    unfold runCompress at hz
    rw [if_pos (show (Algo.comp E (.noop true false)).restr.hasNone = true by
      show (Restr.make [] false).hasNone = true
      rw [make_nil]
      rfl)] at hz
    simp only [Algo.comp, leaf, noopRun, Inp.ofSource, noopReading, if_true, hr, List.drop_zero, Source.bytes] at hz
    simpa using hz.symm
  subst this
  exact ⟨by omega, trivial⟩

/-- a text that the Huffman coder behind restrictions cannot handle, and one that `bwt` loses -/
example : ¬ NoEscapes [97, 0, 98] ∧ (0 : UInt8) ∉ ([97, 98] : List UInt8) ∧ (254 : UInt8) ∉ ([97, 98] : List UInt8) ∧ (97 : UInt8) ∈ ([97, 98] : List UInt8) := by
  simp [NoEscapes]

end Tdc
