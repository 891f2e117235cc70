import Verif.Model.Chain
import Verif.Props.Input
import Verif.Props.Simple
import Verif.Props.BWT
import Verif.Props.TextDS

/-!
# C24 (chaining), C35 (the header written by the driver)
-/

namespace Tdc

/-- No restrictions. -/
abbrev unrestricted : Restr := ⟨[], false⟩

/-- `C` is lossless on `t` when its input and output carry the restrictions `r`: compressing `t` gives the same bytes
`z` whatever the kind of source, and decompressing `z` — the rest of any kind of source from any position on —
writes `t`. -/
def LosslessAt (C : Comp) (r : Restr) (t : List UInt8) : Prop :=
  ∃ z, (∀ src : Source, src.bytes = t → C.compress ⟨src, r, 0, none⟩ = .ok z) ∧
    ∀ (src : Source) (k : Nat), k ≤ src.bytes.length → src.bytes.drop k = z →
      C.decompress ⟨src, unrestricted, k, none⟩ r = .ok t

/-- `C` is lossless on `t` when run by the driver or within a chain. -/
def LosslessRun (C : Comp) (t : List UInt8) : Prop :=
  ∃ z, (∀ src : Source, src.bytes = t → runCompress C (Inp.ofSource src) = .ok z) ∧
    ∀ (src : Source) (k : Nat), k ≤ src.bytes.length → src.bytes.drop k = z →
      runDecompress C ⟨src, unrestricted, k, none⟩ unrestricted = .ok t

/-! ## Reading inputs -/

theorem unrestricted_eq : unrestricted = Restr.make [] false := (make_nil false).symm

/-- Every kind of source delivers the restricted form of its bytes. -/
theorem read_whole (ps : Nat) (hps : 0 < ps) (bs : List UInt8) (nt : Bool) (hc : CanEscape (Restr.make bs nt))
    (rd : Reading) (src : Source) :
    ∃ v, readRestricted (Restr.make bs nt) src.bytes = .ok v ∧
      Inp.read ps rd ⟨src, Restr.make bs nt, 0, none⟩ = .ok v := by
  obtain ⟨v, _, h1, h2, ⟨m, hm, hmv⟩, h4⟩ := restrict_agree_partial ps hps bs nt hc src.bytes
  refine ⟨v, h4, ?_⟩
  cases src with
  | view b => cases rd with
    | view => exact h1
    | stream =>
      have hs : sliceV b 0 none = .ok b := by simp [sliceV]
      simp only [Inp.read, Inp.asStream, hs]
      exact h4
  | file b => cases rd with
    | view => exact h2
    | stream =>
      simp only [Inp.read, Inp.asStream, List.drop_zero]
      exact h4
  | stream b =>
    simp only [Source.bytes] at hm
    cases rd <;> simp [Inp.read, Inp.asView, Inp.asStream, openStream, hm, hmv]

/-- Every kind of source delivers its bytes from any position on. -/
theorem read_suffix (ps : Nat) (hps : 0 < ps) (rd : Reading) (src : Source) (k : Nat) (hk : k ≤ src.bytes.length) :
    Inp.read ps rd ⟨src, unrestricted, k, none⟩ = .ok (src.bytes.drop k) := by
  have hc : CanEscape (Restr.make [] false) := canEscape_six _ _ (by simp)
  have hs : ∀ b : List UInt8, sliceSpec b k none = b.drop k := by intro b; simp [sliceSpec]
  have hr : ∀ b : List UInt8, readRestricted (Restr.make [] false) b = .ok b := by
    intro b; rw [make_nil]; rfl
  cases src with
  | view b =>
    have := memory_input_exact ps hps b [] false k none hc ⟨hk, Nat.le_refl _⟩
    simp only [Inp.expected, Source.bytes, hs, hr] at this
    obtain ⟨v, h1, h2, h3, _⟩ := this
    rw [unrestricted_eq]
    cases rd
    · simpa [Inp.read, h2, Source.bytes] using h1.symm
    · simpa [Inp.read, h3, Source.bytes] using h1.symm
  | file b =>
    have := file_input_exact_partial ps hps b [] false k hc hk
    simp only [Inp.expected, Source.bytes, hs, hr] at this
    obtain ⟨v, h1, h2, h3, _⟩ := this
    rw [unrestricted_eq]
    cases rd
    · simpa [Inp.read, h2, Source.bytes] using h1.symm
    · simpa [Inp.read, h3, Source.bytes] using h1.symm
  | stream b =>
    obtain ⟨v, hv1, _, _, ⟨m, hm, hmv⟩, h4⟩ := restrict_agree_partial ps hps [] false hc b
    rw [hr] at h4
    simp only [Except.ok.injEq] at h4
    subst h4
    rw [make_nil] at hm
    have hsl : streamSlice unrestricted b k none = .ok (b.drop k) := by
      simp only [streamSlice, Restr.hasNoEscape, List.isEmpty_nil, if_true, Bool.false_and, Bool.false_eq_true,
        if_false]
      rw [sliceV_ok hk (Nat.le_refl _), Option.getD_none, List.take_length]
    have key : ∃ p, openStream ps b ⟨none, 0⟩ unrestricted k none = .ok (b.drop k, p) := by
      simp only [openStream, hm, hmv]
      split
      · rename_i h
        exact ⟨_, by rw [h.1]; rfl⟩
      · rw [hsl]; exact ⟨_, rfl⟩
    obtain ⟨p, hp⟩ := key
    cases rd <;> simp [Inp.read, Inp.asView, Inp.asStream, hp, Source.bytes]

/-! ## Compressors that are not chains -/

/-- A compressor is lossless under a restriction if its computations restore, up to what the restricted output
removes, the restricted form of the text. -/
theorem leaf_losslessAt (ps : Nat) (hps : 0 < ps) (own : Restr) (bs : List UInt8) (nt : Bool)
    (hc : CanEscape (Restr.make bs nt)) (rc rd : Reading) (c : List UInt8 → Res (List UInt8))
    (d : List UInt8 → Res (List (List UInt8))) (t : List UInt8)
    (h : ∀ v, readRestricted (Restr.make bs nt) t = .ok v → ∃ z chunks, c v = .ok z ∧ d z = .ok chunks ∧
      (chunks.flatten = v ∨ writeUnrestricted (Restr.make bs nt) chunks = .ok t)) :
    LosslessAt (leaf ps own rc rd c d) (Restr.make bs nt) t := by
  obtain ⟨v, _, _, _, _, hv⟩ := restrict_agree_partial ps hps bs nt hc t
  obtain ⟨z, chunks, h1, h2, h3⟩ := h v hv
  refine ⟨z, ?_, ?_⟩
  · intro src hsrc
    obtain ⟨v', hv', hr⟩ := read_whole ps hps bs nt hc rc src
    rw [hsrc, hv] at hv'
    simp only [Except.ok.injEq] at hv'
    subst hv'
    simp only [leaf, hr, h1]
  · intro src k hk hz
    simp only [leaf, read_suffix ps hps rd src k hk, hz, h2]
    rcases h3 with h3 | h3
    · exact restrict_output_roundtrip_partial bs nt hc t v hv chunks h3
    · exact h3

theorem hasNone_eq {r : Restr} (h : r.hasNone = true) : r = unrestricted := by
  obtain ⟨e, n⟩ := r
  simp only [Restr.hasNone, Restr.hasNoEscape, Bool.and_eq_true, List.isEmpty_iff, beq_iff_eq] at h
  obtain ⟨rfl, rfl⟩ := h
  rfl

/-- From a restriction of the compressor to its use by the driver or a chain. -/
theorem run_of_at (C : Comp) (bs : List UInt8) (nt : Bool) (hC : C.restr = Restr.make bs nt) (t : List UInt8)
    (h : LosslessAt C (Restr.make bs nt) t) : LosslessRun C t := by
  obtain ⟨z, h1, h2⟩ := h
  have hor : unrestricted.or (Restr.make bs nt) = Restr.make bs nt := by
    rw [unrestricted_eq]
    exact (restr_or_algebra bs [] [] nt false false).2.2.2.2
  refine ⟨z, ?_, ?_⟩
  · intro src hsrc
    have := h1 src hsrc
    unfold runCompress Inp.ofSource
    split
    · rename_i hn
      have : Restr.make bs nt = unrestricted := by
        rw [hC] at hn
        exact hasNone_eq hn
      rw [this] at h1
      exact h1 src hsrc
    · rw [hC]
      simp only [Inp.restrict, hor]
      exact this
  · intro src k hk hz
    have := h2 src k hk hz
    unfold runDecompress
    split
    · rename_i hn
      have : Restr.make bs nt = unrestricted := by
        rw [hC] at hn
        exact hasNone_eq hn
      rw [this] at h2
      exact h2 src k hk hz
    · rw [hC, hor]
      exact this

/-! ## Chains -/

/-- The restrictions a chain imposes on the input of its first compressor. -/
def joinRestr (r own : Restr) : Restr := if own.hasNone then r else r.or own

/-- **C24.** `chain(A, B)` under any restrictions `r` is lossless on `t` if `A` is lossless on `t` under `r` joined with
its own restrictions, and `B`, run with its own restrictions, is lossless on what `A` makes of `t`. -/
theorem chain_lossless (A B : Comp) (r : Restr) (t : List UInt8)
    (hA : LosslessAt A (joinRestr r A.restr) t)
    (hB : ∀ z, A.compress ⟨.view t, joinRestr r A.restr, 0, none⟩ = .ok z → LosslessRun B z) :
    LosslessAt (chain A B) r t := by
  obtain ⟨z, h1, h2⟩ := hA
  obtain ⟨y, h3, h4⟩ := hB z (h1 (.view t) rfl)
  refine ⟨y, ?_, ?_⟩
  · intro src hsrc
    have : runCompress A ⟨src, r, 0, none⟩ = .ok z := by
      have := h1 src hsrc
      unfold runCompress
      unfold joinRestr at this
      split <;> rename_i hn
      · rw [if_pos hn] at this; exact this
      · rw [if_neg hn] at this; exact this
    simp only [chain, this]
    exact h3 (.view z) rfl
  · intro src k hk hy
    simp only [chain, h4 src k hk hy]
    have := h2 (.view z) 0 (Nat.zero_le _) rfl
    unfold runDecompress
    unfold joinRestr at this
    split <;> rename_i hn
    · rw [if_pos hn] at this; exact this
    · rw [if_neg hn] at this; exact this

/-- **C24, as run by the driver.** -/
theorem chain_run (A B : Comp) (t : List UInt8) (hA : LosslessRun A t)
    (hB : ∀ z, runCompress A (Inp.ofSource (.view t)) = .ok z → LosslessRun B z) : LosslessRun (chain A B) t := by
  obtain ⟨z, h1, h2⟩ := hA
  obtain ⟨y, h3, h4⟩ := hB z (h1 (.view t) rfl)
  refine ⟨y, ?_, ?_⟩
  · intro src hsrc
    show (if (chain A B).restr.hasNone then _ else _) = _
    rw [if_pos (show (chain A B).restr.hasNone = true from rfl)]
    simp only [chain, h1 src hsrc]
    exact h3 (.view z) rfl
  · intro src k hk hy
    show (if (chain A B).restr.hasNone then _ else _) = _
    rw [if_pos (show (chain A B).restr.hasNone = true from rfl)]
    simp only [chain, h4 src k hk hy]
    exact h2 (.view z) 0 (Nat.zero_le _) rfl

/-- Algorithms as they are built on the command line: `A`, `B`, `chain(A, chain(B, C))`, … -/
inductive Pipeline where
  | single (C : Comp)
  | chained (p q : Pipeline)

/-- The compressor the driver creates. -/
def Pipeline.comp : Pipeline → Comp
  | .single C => C
  | .chained p q => chain p.comp q.comp

/-- The compressors a pipeline is made of. -/
def Pipeline.parts : Pipeline → List Comp
  | .single C => [C]
  | .chained p q => p.parts ++ q.parts

/-- **C24, any nesting.** A pipeline of lossless compressors, nested in any way and with any restrictions, is
lossless on every text. -/
theorem pipeline_lossless (p : Pipeline) (h : ∀ C ∈ p.parts, ∀ t, LosslessRun C t) (t : List UInt8) :
    LosslessRun p.comp t := by
  induction p generalizing t with
  | single C => exact h C (by simp [Pipeline.parts]) t
  | chained p q ihp ihq =>
    exact chain_run _ _ _ (ihp (fun C hC => h C (by simp [Pipeline.parts, hC])) t)
      fun z _ => ihq (fun C hC => h C (by simp [Pipeline.parts, hC])) z

/-! ## C35: the driver -/

theorem headerLoop_spec (rest : List UInt8) : ∀ (id h : List UInt8) (n : Nat) (err : Bool), percent ∉ id →
    n + id.length ≤ 1023 → headerLoop (id ++ percent :: rest) n err h = .ok (h ++ id)
  | [], h, n, err, _, hl => by
    rw [List.nil_append, headerLoop, if_neg (by simp at hl; omega), if_pos rfl, List.append_nil]
  | c :: id, h, n, err, hp, hl => by
    simp only [List.mem_cons, not_or] at hp
    simp only [List.length_cons] at hl
    rw [List.cons_append, headerLoop, if_neg (by omega), if_neg (fun h => hp.1 h.symm),
      headerLoop_spec rest id (h ++ [c]) (n + 1) true hp.2 (by omega), List.append_assoc]
    rfl

theorem headerLoop_long : ∀ (l h : List UInt8) (n : Nat) (err : Bool), n ≤ 1024 → percent ∉ l.take (1024 - n) →
    1024 < n + l.length → headerLoop l n err h = .error .throw
  | [], h, n, err, h1, _, h3 => by simp at h3; omega
  | c :: l, h, n, err, h1, h2, h3 => by
    rw [headerLoop]
    split
    · rfl
    · rename_i hn
      have : 1024 - n = (1024 - (n + 1)) + 1 := by omega
      rw [this, List.take_succ_cons, List.mem_cons, not_or] at h2
      rw [if_neg (fun h => h2.1 h.symm)]
      exact headerLoop_long l _ _ _ (by omega) h2.2 (by simp only [List.length_cons] at h3; omega)

/-- **C35.** What the driver writes with `--algorithm id` can be decompressed without naming the algorithm again:
the header selects it, and the text comes back — from memory, a file or standard input, for any lossless compressor.
Partial: identifiers of more than 1023 characters are accepted when compressing but not when decompressing
(`driver_long_id_broken`). -/
theorem driver_header_roundtrip_partial (ps : Nat) (hps : 0 < ps) (C : Comp) (select : List UInt8 → Res Comp)
    (id t : List UInt8) (src : Source) (hsrc : src.bytes = t) (hsel : select id = .ok C) (hid : percent ∉ id)
    (hlen : id.length ≤ 1023) (hC : LosslessRun C t) :
    ∃ file, driverCompress C id false src = .ok file ∧
      ∀ dst : Source, dst.bytes = file → driverDecompress ps select none dst = .ok t := by
  obtain ⟨z, h1, h2⟩ := hC
  refine ⟨id ++ percent :: z, ?_, ?_⟩
  · unfold driverCompress
    rw [if_neg (by simp [hid]), h1 src hsrc]
    rfl
  · intro dst hdst
    have hr := read_suffix ps hps .stream dst 0 (Nat.zero_le _)
    simp only [Inp.read, List.drop_zero] at hr
    unfold driverDecompress
    simp only [Inp.ofSource, hr, hdst, headerLoop_spec z id [] 0 false hid (by omega), List.nil_append, hsel]
    have := h2 dst (id.length + 1) (by rw [hdst]; simp) (by rw [hdst]; simp)
    simpa [Inp.slice] using this

/-- **C35, raw.** The same without a header. -/
theorem driver_raw_roundtrip (ps : Nat) (C : Comp) (select : List UInt8 → Res Comp) (id t : List UInt8)
    (src : Source) (hsrc : src.bytes = t) (hC : LosslessRun C t) :
    ∃ file, driverCompress C id true src = .ok file ∧
      ∀ dst : Source, dst.bytes = file → driverDecompress ps select (some C) dst = .ok t := by
  obtain ⟨z, h1, h2⟩ := hC
  refine ⟨z, by simp [driverCompress, h1 src hsrc], ?_⟩
  intro dst hdst
  simpa [driverDecompress, Inp.ofSource] using h2 dst 0 (Nat.zero_le _) (by simp [hdst])

/-- **C35, negation.** With an identifier of 1024 characters or more the driver compresses, but then refuses to
decompress its own output. -/
theorem driver_long_id_broken (ps : Nat) (hps : 0 < ps) (C : Comp) (select : List UInt8 → Res Comp)
    (id t : List UInt8) (src : Source) (hsrc : src.bytes = t) (hid : percent ∉ id) (hlen : 1024 ≤ id.length)
    (hC : LosslessRun C t) :
    ∃ file, driverCompress C id false src = .ok file ∧
      ∀ dst : Source, dst.bytes = file → driverDecompress ps select none dst = .error .throw := by
  obtain ⟨z, h1, h2⟩ := hC
  refine ⟨id ++ percent :: z, ?_, ?_⟩
  · unfold driverCompress
    rw [if_neg (by simp [hid]), h1 src hsrc]
    rfl
  · intro dst hdst
    have hr := read_suffix ps hps .stream dst 0 (Nat.zero_le _)
    simp only [Inp.read, List.drop_zero] at hr
    have := headerLoop_long (id ++ percent :: z) [] 0 false (by omega) (by
      rw [Nat.sub_zero, List.take_append_of_le_length (by omega)]
      exact fun h => hid (List.mem_of_mem_take h)) (by simp; omega)
    unfold driverDecompress
    simp only [Inp.ofSource, hr, hdst, this]

/-! ## Instances: the modelled compressors in chains -/

/-- `mtf` -/
def mtfComp (ps : Nat) : Comp :=
  leaf ps (Restr.make [] false) .stream .stream (fun v => .ok (mtfEncode v)) (fun z => .ok [mtfDecode z])

/-- `literal(coder)` -/
def literalComp (ps : Nat) (n : CoderName) : Comp :=
  leaf ps (Restr.make [] false) .view .stream (fun v => .ok (literalCompress n.coder v))
    (fun z => (literalDecompress n.coder z).map fun t => [t])

/-- `bwt`, with any construction of suffix arrays -/
def bwtComp (ps : Nat) (saOf : List UInt8 → List Nat) : Comp :=
  leaf ps (Restr.make [0] true) .view .view (fun v => bwtCompress v (saOf v))
    (fun z => (bwtDecompress z).map fun t => [t])

theorem mtfComp_lossless (ps : Nat) (hps : 0 < ps) (t : List UInt8) : LosslessRun (mtfComp ps) t := by
  refine run_of_at _ [] false rfl t (leaf_losslessAt ps hps _ [] false (canEscape_six _ _ (by simp)) _ _ _ _ t ?_)
  intro v _
  exact ⟨_, _, rfl, rfl, .inl (by simp [(mtf_lossless v).1])⟩

theorem literalComp_lossless (ps : Nat) (hps : 0 < ps) (n : CoderName) (t : List UInt8) :
    LosslessRun (literalComp ps n) t := by
  refine run_of_at _ [] false rfl t (leaf_losslessAt ps hps _ [] false (canEscape_six _ _ (by simp)) _ _ _ _ t ?_)
  intro v _
  exact ⟨_, [v], rfl, by simp only [literal_lossless]; rfl, .inl (by simp)⟩

/-- A text without the bytes 0 and 255 is only terminated under the restriction of `bwt`. -/
theorem read_sentinel (t v : List UInt8) (h0 : (0 : UInt8) ∉ t) (h255 : (255 : UInt8) ∉ t)
    (h : readRestricted (Restr.make [0] true) t = .ok v) : v = t ++ [0] := by
  have hc : CanEscape (Restr.make [0] true) := canEscape_six _ _ (by simp)
  obtain ⟨f, u, ht, hf, hu, hfn, hun, ho⟩ := tableOf_of (restr_make_nodup [0] true) hc
  have hne : (Restr.make [0] true).esc ≠ [] := fun h => by simpa using make_esc_nil.1 h
  have ho := ho.resolve_left (fun h => hne h.1)
  obtain ⟨em, hem, heb⟩ := ho.escEm
  have he : f.escapeByte = 255 := by
    rw [← heb]
    exact escapeByte_255 hne (by rw [mem_make]; simp) hem
  rw [readRestricted_spec ht hf hfn t] at h
  simp only [Except.ok.injEq] at h
  have key : ∀ t : List UInt8, (0 : UInt8) ∉ t → (255 : UInt8) ∉ t → escList f t = t := by
    intro t h0 h255
    induction t with
    | nil => rfl
    | cons b t ih =>
      simp only [List.mem_cons, not_or] at h0 h255
      have hb : ¬ (b = f.escapeByte ∨ b ∈ (Restr.make [0] true).esc) := by
        rw [he, mem_make]
        rintro (h | h)
        · exact h255.1 h.symm
        · simp at h; exact h0.1 h.symm
      have hfl := ho.flag b
      rw [if_neg hb] at hfl
      have := ih h0.2 h255.2
      simp only [escList, List.flatMap_cons] at this ⊢
      rw [this]
      simp [escByte, hfl, ho.mapId b hb]
  rw [← h, restricted, key t h0 h255]
  rfl

theorem bwtComp_lossless (ps : Nat) (hps : 0 < ps) (saOf : List UInt8 → List Nat)
    (hsa : ∀ t, Sentinel t → IsSA t (saOf t)) (t : List UInt8) (h0 : (0 : UInt8) ∉ t) (h255 : (255 : UInt8) ∉ t) :
    LosslessRun (bwtComp ps saOf) t := by
  have hc : CanEscape (Restr.make [0] true) := canEscape_six _ _ (by simp)
  refine run_of_at _ [0] true rfl t (leaf_losslessAt ps hps _ [0] true hc _ _ _ _ t ?_)
  intro v hv
  have hv' := read_sentinel t v h0 h255 hv
  have hs : Sentinel v := ⟨t, hv', h0⟩
  obtain ⟨z, h1, h2⟩ := bwt_compressor_lossless_partial v (saOf v) (hsa v hs) hs (by
    rw [hv']; simp [h255])
  refine ⟨z, [if v.length = 1 then [] else v], h1, by simp [h2]; rfl, ?_⟩
  split
  · right
    rename_i h
    have : t = [] := by
      rw [hv'] at h
      simp at h
      exact h
    subst this
    obtain ⟨f, u, ht, hf, hu, hfn, hun, ho⟩ := tableOf_of (restr_make_nodup [0] true) hc
    unfold writeUnrestricted
    have hn : (Restr.make [0] true).hasNone = false := by
      rw [Restr.hasNone]
      have : (Restr.make [0] true).nt = true := rfl
      simp [this]
    simp [hn, hu]
  · left; simp

/-- **C24, C35 together, for algorithms of the code base:** `chain(bwt, chain(mtf, literal(coder)))`, compressed by
the driver and decompressed by it, gives back every text without the bytes 0 and 255; the inner chain gives
back every text. -/
theorem bwt_mtf_pipeline (ps : Nat) (hps : 0 < ps) (saOf : List UInt8 → List Nat)
    (hsa : ∀ t, Sentinel t → IsSA t (saOf t)) (n : CoderName) (t : List UInt8) :
    LosslessRun (chain (mtfComp ps) (literalComp ps n)) t ∧
    ((0 : UInt8) ∉ t → (255 : UInt8) ∉ t →
      LosslessRun (chain (bwtComp ps saOf) (chain (mtfComp ps) (literalComp ps n))) t) := by
  have hin : ∀ t, LosslessRun (chain (mtfComp ps) (literalComp ps n)) t := fun t =>
    chain_run _ _ t (mtfComp_lossless ps hps t) fun z _ => literalComp_lossless ps hps n z
  exact ⟨hin t, fun h0 h255 => chain_run _ _ t (bwtComp_lossless ps hps saOf hsa t h0 h255) fun z _ => hin z⟩

/-! ## Witnesses -/

example : ∃ saOf : List UInt8 → List Nat, ∀ t, Sentinel t → IsSA t (saOf t) := by
  classical
  refine ⟨fun t => if h : ∃ sa, IsSA t sa then h.choose else [], fun t _ => ?_⟩
  have h := exists_isSA t
  simp only [h, dif_pos]
  exact h.choose_spec

example : ∃ p : Pipeline, p.parts.length = 3 ∧ ∀ C ∈ p.parts, ∀ t, LosslessRun C t :=
  ⟨.chained (.single (mtfComp 4096)) (.chained (.single (literalComp 4096 .ascii)) (.single (mtfComp 4096))), rfl, by
    intro C hC t
    simp only [Pipeline.parts, List.cons_append, List.nil_append, List.mem_cons, List.not_mem_nil, or_false] at hC
    rcases hC with rfl | rfl | rfl
    · exact mtfComp_lossless _ (by omega) t
    · exact literalComp_lossless _ (by omega) _ t
    · exact mtfComp_lossless _ (by omega) t⟩

example : percent ∉ ([109, 116, 102] : List UInt8) ∧ ([109, 116, 102] : List UInt8).length ≤ 1023 := by
  decide

end Tdc
