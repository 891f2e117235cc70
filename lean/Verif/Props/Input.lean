import Verif.Spec.Input
import Verif.Lemmas.Input
import Verif.Props.Restrict

/-! # C23: slicing inputs -/

namespace Tdc

/-- The bytes of the source selected by an input. -/
def Inp.range (i : Inp) : List UInt8 := sliceSpec i.src.bytes i.frm i.upto

/-- **C23.** Slicing twice selects the slice of the slice — if the second slice names its end, or the first is
open ended (`slice_open_end_broken`: otherwise the end of the first slice is forgotten). -/
theorem slice_compose_partial (s : Source) (a c : Nat) (b d : Option Nat)
    (h1 : InRange s.bytes a b) (h2 : InRange (sliceSpec s.bytes a b) c d) (h : d ≠ none ∨ b = none) :
    (((Inp.ofSource s).slice a b).slice c d).range = sliceSpec (sliceSpec s.bytes a b) c d := by
  generalize hbytes : s.bytes = t at *
  simp only [Inp.range, Inp.slice, Inp.ofSource, hbytes, Nat.zero_add]
  unfold sliceSpec InRange at *
  cases d with
  | some d =>
    simp only [Option.getD_some] at h2 ⊢
    have hl : ((t.take (b.getD t.length)).drop a).length = b.getD t.length - a := by simp; omega
    have e1 : ((t.take (b.getD t.length)).drop a).take d = (t.take (a + d)).drop a := by
      rw [List.drop_take, List.take_take, List.drop_take]
      congr 1
      omega
    rw [e1, List.drop_drop]
  | none =>
    have hb : b = none := h.resolve_left (by simp)
    subst hb
    simp only [Option.getD_none, List.take_length]
    rw [List.drop_drop]

/-- **C23, negation.** An open-ended slice of a bounded slice always reads past the end of the bounded slice. -/
theorem slice_open_end_broken (s : Source) (a b c : Nat) (h1 : a ≤ b) (h2 : c ≤ b - a)
    (h3 : b < s.bytes.length) :
    (((Inp.ofSource s).slice a (some b)).slice c none).range ≠ sliceSpec (sliceSpec s.bytes a (some b)) c none := by
  intro h
  have hl := congrArg List.length h
  simp only [Inp.range, Inp.slice, Inp.ofSource, sliceSpec, Nat.zero_add, Option.getD_none, Option.getD_some,
    List.length_drop, List.length_take] at hl
  omega

/-- **C23.** An input over memory delivers exactly its slice, as a view and as a stream. -/
theorem memory_input_exact (ps : Nat) (hps : 0 < ps) (t bs : List UInt8) (nt : Bool) (frm : Nat)
    (upto : Option Nat) (hc : CanEscape (Restr.make bs nt)) (hr : InRange t frm upto) :
    let i : Inp := ⟨.view t, Restr.make bs nt, frm, upto⟩
    (∃ v, i.expected = .ok v ∧ i.asView ps = .ok v ∧ i.asStream ps = .ok v ∧ i.size ps = .ok v.length) := by
  obtain ⟨f, u, ht, hf, hu, hfn, hun, ho⟩ := tableOf_of (restr_make_nodup bs nt) hc
  have hs : sliceV t frm upto = .ok (sliceSpec t frm upto) := sliceV_ok hr.1 hr.2
  have hrd := readRestricted_spec ht hf hfn (sliceSpec t frm upto)
  refine ⟨restricted (Restr.make bs nt) f (sliceSpec t frm upto), hrd, initView_spec hps ht hs, ?_, ?_⟩
  · simp only [Inp.asStream, hs, hrd]
  · simp only [Inp.size, Inp.asStream, hs, hrd]
    split
    · rename_i hnone
      have hid : restricted (Restr.make bs nt) f (sliceSpec t frm upto) = sliceSpec t frm upto := by
        have := hrd
        rw [readRestricted, if_pos hnone] at this
        simpa using this.symm
      rw [hid]
      simp only [sliceSpec, Source.bytes, List.length_drop, List.length_take]
      congr 1
      have := hr.2
      omega
    · rfl

/-- **C23.** An input over a file whose slice is open ended delivers exactly its slice, as a view and as a
stream.  Partial: bounded slices of files are broken (`file_view_overruns`, `file_stream_ignores_end`). -/
theorem file_input_exact_partial (ps : Nat) (hps : 0 < ps) (t bs : List UInt8) (nt : Bool) (frm : Nat)
    (hc : CanEscape (Restr.make bs nt)) (hr : frm ≤ t.length) :
    let i : Inp := ⟨.file t, Restr.make bs nt, frm, none⟩
    (∃ v, i.expected = .ok v ∧ i.asView ps = .ok v ∧ i.asStream ps = .ok v ∧ i.size ps = .ok v.length) := by
  obtain ⟨f, u, ht, hf, hu, hfn, hun, ho⟩ := tableOf_of (restr_make_nodup bs nt) hc
  have hs : sliceV t frm none = .ok (sliceSpec t frm none) := sliceV_ok hr (by simp)
  have hsd : sliceSpec t frm none = t.drop frm := by simp [sliceSpec]
  have hrd := readRestricted_spec ht hf hfn (sliceSpec t frm none)
  refine ⟨restricted (Restr.make bs nt) f (sliceSpec t frm none), hrd, initFile_spec hps ht hs ?_, ?_, ?_⟩
  · have h1 := pageRound_ge hps ((restricted (Restr.make bs nt) f (sliceSpec t frm none)).length
      + (frm - nextValidOffset ps frm))
    have h2 := length_le_escList ht.flag01 (sliceSpec t frm none)
    have h3 : (restricted (Restr.make bs nt) f (sliceSpec t frm none)).length
        = (escList f (sliceSpec t frm none)).length + (if (Restr.make bs nt).nt then 1 else 0) := by
      rw [restricted, List.length_append, ntList_length]
    have h4 : (sliceSpec t frm none).length = t.length - frm := by simp [hsd]
    have h5 : nextValidOffset ps frm ≤ frm := by unfold nextValidOffset; omega
    simp only
    omega
  · simp only [Inp.asStream]
    rw [← hsd, hrd]
  · simp only [Inp.size, Inp.asStream]
    rw [← hsd, hrd]
    split
    · rename_i hnone
      have hid : restricted (Restr.make bs nt) f (sliceSpec t frm none) = sliceSpec t frm none := by
        have := hrd
        rw [readRestricted, if_pos hnone] at this
        simpa using this.symm
      rw [hid]
      simp [sliceSpec, Source.bytes]
    · rfl

/-- **C23, negation.** A view of a bounded slice of a file overruns its buffer whenever the file goes on for more
than a page behind the end of the slice. -/
theorem file_view_overruns (ps : Nat) (hps : 0 < ps) (t : List UInt8) (frm x : Nat) (h1 : frm ≤ x)
    (h2 : x + ps < t.length) :
    (⟨.file t, Restr.make [] false, frm, some x⟩ : Inp).asView ps = .error .ub := by
  simp only [Inp.asView, initFile, make_nil, Option.getD_some]
  rw [if_neg (by omega)]
  simp only [extraSize, Restr.hasNoEscape]
  have hal : nextValidOffset ps frm ≤ frm := by unfold nextValidOffset; omega
  simp only [List.isEmpty_nil, Bool.not_true, Bool.false_eq_true, if_false, Nat.add_zero]
  have hpr : pageRound ps (x - frm + (frm - nextValidOffset ps frm)) ≤ x - nextValidOffset ps frm + ps := by
    unfold pageRound
    have := Nat.div_mul_le_self (max 1 (x - frm + (frm - nextValidOffset ps frm)) + ps - 1) ps
    omega
  have : Mem.ofFile ps t (x - frm + (frm - nextValidOffset ps frm)) (nextValidOffset ps frm) = .error .ub := by
    unfold Mem.ofFile Mem.alloc
    simp only [List.length_replicate, List.length_drop]
    rw [if_pos (by omega)]
  rw [this]

/-- **C23, negation.** A stream over a bounded slice of a file does not stop at the end of the slice. -/
theorem file_stream_ignores_end (ps : Nat) (t : List UInt8) (frm x : Nat) (h1 : frm ≤ x) (h2 : x < t.length) :
    (⟨.file t, Restr.make [] false, frm, some x⟩ : Inp).asStream ps
      ≠ (⟨.file t, Restr.make [] false, frm, some x⟩ : Inp).expected := by
  simp only [Inp.asStream, Inp.expected, make_nil, readRestricted, Restr.hasNone, Restr.hasNoEscape,
    List.isEmpty_nil, Bool.true_and, beq_self_eq_true, if_true]
  intro h
  simp only [Except.ok.injEq] at h
  have hl := congrArg List.length h
  simp only [sliceSpec, Source.bytes, Option.getD_some, List.length_drop, List.length_take] at hl
  omega

/-! ## Streams: any history of views under any restrictions -/

/-- Requests the stream code serves correctly: the whole stream, or a slice that — if bytes are forbidden —
does not end exactly at the end of the data, and that is open ended if null termination is requested. -/
def GoodRequest (t : List UInt8) : StreamOp → Prop
  | .release => True
  | .acquire bs nt frm upto =>
    CanEscape (Restr.make bs nt) ∧
    ((frm = 0 ∧ upto = none) ∨
      (InRange t frm upto ∧ (nt = true → upto = none) ∧
        (bs ≠ [] → 255 ∉ bs ∧ (nt = true ∨ frm < t.length) ∧ ∀ x, upto = some x → x < t.length)))

/-- What is known about the pool. -/
def PoolOk (t : List UInt8) (p : StreamPool) : Prop :=
  ∀ r m, p.parent = some (r, m) → ∃ bs nt f u, r = Restr.make bs nt ∧ tableOf r f ∧ fastEscOf r = .ok f ∧
    fastUnescOf r = .ok u ∧ f.nt = r.nt ∧ ((r.esc = [] ∧ u = ⟨fun b => b, 255, r.nt, false⟩) ∨ EscOk r f u) ∧
    Holds m (restricted r f t)

theorem escapeByte_255 {r : Restr} {em : EscMap} (hne : r.esc ≠ []) (h : 255 ∉ r.esc)
    (he : EscMap.make r = .ok em) : em.escapeByte = 255 := by
  have hp := pickRepl_eq r.esc escapePool [] (by simp)
  simp only [List.nil_append, List.length_nil, Nat.sub_zero] at hp
  have : ∃ l, escapePool.filter (fun b => !(r.esc.contains b)) = 255 :: l := by
    unfold escapePool
    rw [List.filter_cons_of_pos (by simpa using h)]
    exact ⟨_, rfl⟩
  obtain ⟨l, hl⟩ := this
  rw [hl, List.take_succ_cons] at hp
  unfold EscMap.make at he
  rw [if_neg (by simpa using hne), hp] at he
  simp only [Except.ok.injEq] at he
  rw [← he]
  rfl

theorem eqv_eq {a b : Restr} (h : a.eqv b = true) : a = b := by
  obtain ⟨e, n⟩ := a
  obtain ⟨e', n'⟩ := b
  simp only [Restr.eqv, Bool.and_eq_true, beq_iff_eq] at h
  obtain ⟨rfl, rfl⟩ := h
  rfl

theorem openStream_spec {ps : Nat} (hps : 0 < ps) {t : List UInt8} (h255 : 255 ∉ t) {p : StreamPool}
    (hp : PoolOk t p) {bs : List UInt8} {nt : Bool} {frm : Nat} {upto : Option Nat}
    (hg : GoodRequest t (.acquire bs nt frm upto)) :
    (openStream ps t p (Restr.make bs nt) frm upto = .error .throw ∧ p.handles ≠ 0) ∨
    ∃ v p', openStream ps t p (Restr.make bs nt) frm upto = .ok (v, p') ∧ PoolOk t p' ∧
      readRestricted (Restr.make bs nt) (sliceSpec t frm upto) = .ok v := by
  obtain ⟨hc, hg⟩ := hg
  -- the parent buffer after the first half of the function
  have key : (p.handles ≠ 0 ∧ openStream ps t p (Restr.make bs nt) frm upto = .error .throw) ∨
      ∃ m f u, (tableOf (Restr.make bs nt) f ∧ fastEscOf (Restr.make bs nt) = .ok f ∧
          fastUnescOf (Restr.make bs nt) = .ok u ∧ f.nt = (Restr.make bs nt).nt ∧
          (((Restr.make bs nt).esc = [] ∧ u = ⟨fun b => b, 255, (Restr.make bs nt).nt, false⟩)
            ∨ EscOk (Restr.make bs nt) f u)) ∧
        Holds m (restricted (Restr.make bs nt) f t) ∧
        openStream ps t p (Restr.make bs nt) frm upto
          = if frm = 0 ∧ upto = none then .ok (m.view, ⟨some (Restr.make bs nt, m), p.handles + 1⟩)
            else match streamSlice (Restr.make bs nt) m.view frm upto with
              | .error e => .error e
              | .ok v => .ok (v, ⟨some (Restr.make bs nt, m), p.handles + 1⟩) := by
    unfold openStream
    cases hpp : p.parent with
    | none =>
      right
      obtain ⟨f, u, ht, hf, hu, hfn, hun, ho⟩ := tableOf_of (restr_make_nodup bs nt) hc
      obtain ⟨m, hm, hmh⟩ := initStream_spec hps ht t
      refine ⟨m, f, u, ⟨ht, hf, hu, hfn, ho⟩, hmh, ?_⟩
      simp only [hm]
      rfl
    | some rm =>
      obtain ⟨old, m0⟩ := rm
      obtain ⟨bs0, nt0, f0, u0, rfl, ht0, hf0, hu0, hn0, ho0, hm0⟩ := hp old m0 hpp
      simp only
      by_cases heq : (Restr.make bs0 nt0).eqv (Restr.make bs nt) = true
      · right
        have he := eqv_eq heq
        refine ⟨m0, f0, u0, ?_, ?_, ?_⟩
        · rw [← he]; exact ⟨ht0, hf0, hu0, hn0, ho0⟩
        · rw [← he]; exact hm0
        · rw [if_pos heq, he]
          rfl
      · rw [if_neg heq]
        by_cases hh : p.handles = 0
        · right
          obtain ⟨f, u, ht, hf, hu, hfn, hun, ho⟩ := tableOf_of (restr_make_nodup bs nt) hc
          obtain ⟨m, h1, h2⟩ := change_step hps (.inr (.inr h255)) ht0 hu0 ho0 ht hm0
          refine ⟨m, f, u, ⟨ht, hf, hu, hfn, ho⟩, h2, ?_⟩
          rw [if_neg (by simp [hh]), h1]
          rfl
        · left
          exact ⟨hh, by rw [if_pos hh]⟩
  rcases key with ⟨h1, h2⟩ | ⟨m, f, u, ⟨ht, hf, hu, hfn, ho⟩, hm, heq⟩
  · exact .inl ⟨h2, h1⟩
  · right
    rw [heq, hm.1]
    have hpool : PoolOk t ⟨some (Restr.make bs nt, m), p.handles + 1⟩ := by
      intro r' m' h
      simp only [Option.some.injEq, Prod.mk.injEq] at h
      obtain ⟨rfl, rfl⟩ := h
      exact ⟨bs, nt, f, u, rfl, ht, hf, hu, hfn, ho, hm⟩
    by_cases hwhole : frm = 0 ∧ upto = none
    · rw [if_pos hwhole]
      refine ⟨_, _, rfl, hpool, ?_⟩
      obtain ⟨rfl, rfl⟩ := hwhole
      have : sliceSpec t 0 none = t := by simp [sliceSpec]
      rw [this]
      exact readRestricted_spec ht hf hfn t
    · rw [if_neg hwhole]
      obtain ⟨hr, hnt, hesc⟩ := hg.resolve_left hwhole
      have := streamSlice_spec ht ho t frm upto hr.1 hr.2 hnt (by
        intro hne
        have hbs : bs ≠ [] := fun h => hne (make_esc_nil.2 h)
        obtain ⟨g1, g2, g3⟩ := hesc hbs
        refine ⟨?_, g2, g3⟩
        have ho' := ho.resolve_left (fun h => hne h.1)
        obtain ⟨em, hem, heb⟩ := ho'.escEm
        rw [← heb, escapeByte_255 hne (fun h => g1 (mem_make.1 h)) hem]
        exact h255)
      rw [this]
      exact ⟨_, _, rfl, hpool, readRestricted_spec ht hf hfn _⟩

/-- **C23, streams.** Take any stream whose data do not contain the byte 255 (e.g. any UTF-8 text) and any history
of views and streams of slices of it, under any restrictions, dropped in any order.  Every one of them delivers
exactly its slice, restricted — or the program stops because it asked for another restriction while another view
was alive.  Partial: see `GoodRequest`, `stream_slice_255_broken`, `stream_slice_end_broken`. -/
theorem stream_history_exact_partial (ps : Nat) (hps : 0 < ps) (t : List UInt8) (h255 : 255 ∉ t)
    (ops : List StreamOp) (hops : ∀ op ∈ ops, GoodRequest t op) :
    ∀ bs nt frm upto alive res, (StreamOp.acquire bs nt frm upto, alive, res) ∈ runStream ps t ⟨none, 0⟩ ops →
      res = readRestricted (Restr.make bs nt) (sliceSpec t frm upto) ∨ (res = .error .throw ∧ alive ≠ 0) := by
  have gen : ∀ (ops : List StreamOp) (p : StreamPool), PoolOk t p → (∀ op ∈ ops, GoodRequest t op) →
      ∀ bs nt frm upto alive res, (StreamOp.acquire bs nt frm upto, alive, res) ∈ runStream ps t p ops →
      res = readRestricted (Restr.make bs nt) (sliceSpec t frm upto) ∨ (res = .error .throw ∧ alive ≠ 0) := by
    intro ops
    induction ops with
    | nil => intro p _ _ bs nt frm upto alive res h; simp [runStream] at h
    | cons op ops ih =>
      intro p hp hg bs nt frm upto alive res h
      cases op with
      | release =>
        exact ih (closeStream p) hp (fun op ho => hg op (by simp [ho])) _ _ _ _ _ _ h
      | acquire bs' nt' frm' upto' =>
        rw [runStream] at h
        rcases openStream_spec hps h255 hp (hg (.acquire bs' nt' frm' upto') (by simp)) with ⟨h1, h2⟩ | ⟨v, p', h1, h2, h3⟩
        · rw [h1] at h
          simp only [List.mem_singleton, Prod.mk.injEq, StreamOp.acquire.injEq] at h
          obtain ⟨⟨rfl, rfl, rfl, rfl⟩, rfl, rfl⟩ := h
          exact .inr ⟨rfl, h2⟩
        · rw [h1] at h
          simp only [List.mem_cons, Prod.mk.injEq, StreamOp.acquire.injEq] at h
          rcases h with ⟨⟨rfl, rfl, rfl, rfl⟩, rfl, rfl⟩ | h
          · exact .inl h3.symm
          · exact ih p' h2 (fun op ho => hg op (by simp [ho])) _ _ _ _ _ _ h
  exact gen ops ⟨none, 0⟩ (by intro r m h; simp at h) hops

/-- **C23, negation.** In a stream that starts with the byte 255, followed by a byte that is not escaped, the slice
from position 1 under the restriction `{0}` misses a byte: the escaped escape byte is not counted as a
character. -/
theorem stream_slice_255_broken (ps : Nat) (hps : 0 < ps) (c : UInt8) (h0 : c ≠ 0) (h1 : c ≠ 255)
    (rest : List UInt8) :
    (⟨.stream (255 :: c :: rest), Restr.make [0] true, 1, none⟩ : Inp).asView ps
      ≠ (⟨.stream (255 :: c :: rest), Restr.make [0] true, 1, none⟩ : Inp).expected := by
  have hc : CanEscape (Restr.make [0] true) := canEscape_six _ _ (by simp)
  obtain ⟨f, u, ht, hf, hu, hfn, hun, ho⟩ := tableOf_of (restr_make_nodup [0] true) hc
  have hne : (Restr.make [0] true).esc ≠ [] := fun h => by simpa using make_esc_nil.1 h
  have ho := ho.resolve_left (fun h => hne h.1)
  obtain ⟨em, hem, heb⟩ := ho.escEm
  have he : f.escapeByte = 255 := by
    rw [← heb]
    exact escapeByte_255 hne (fun h => by simpa using mem_make.1 h) hem
  obtain ⟨m, hm, hmv, _⟩ := initStream_spec hps ht (255 :: c :: rest)
  have hcf : ¬ (c = f.escapeByte ∨ c ∈ (Restr.make [0] true).esc) := by
    rw [he, mem_make]; simp [h0, h1]
  have hfc : f.flag c = 0 := by rw [ho.flag c, if_neg hcf]
  have hf255 : f.flag 255 = 1 := by rw [ho.flag 255, if_pos (.inl he.symm)]
  have hm255 : f.map 255 = 255 := by have := ho.mapEsc; rwa [he] at this
  have hv : restricted (Restr.make [0] true) f (255 :: c :: rest)
      = 255 :: 255 :: c :: restricted (Restr.make [0] true) f rest := by
    simp [restricted, escList, escByte, hfc, hf255, hm255, he, ho.mapId c hcf]
  have hrne : restricted (Restr.make [0] true) f rest ≠ [] := by
    simp [restricted, ntList, Restr.make]
  obtain ⟨x, xs, hx⟩ : ∃ x xs, restricted (Restr.make [0] true) f rest = x :: xs :=
    List.exists_cons_of_ne_nil hrne
  have hsl : streamSlice (Restr.make [0] true) (255 :: 255 :: c :: x :: xs) 1 none = .ok (x :: xs) := by
    unfold streamSlice
    have hh : (Restr.make [0] true).hasNoEscape = false := by simpa [Restr.hasNoEscape] using hne
    have hem' : em.escapeByte = 255 := heb.trans he
    simp [hh, hem, hem', scanEscaped, h1, sliceV]
  have hview : (⟨.stream (255 :: c :: rest), Restr.make [0] true, 1, none⟩ : Inp).asView ps = .ok (x :: xs) := by
    simp only [Inp.asView, openStream, hm]
    rw [if_neg (by simp), hmv, hv, hx, hsl]
  have hexp : (⟨.stream (255 :: c :: rest), Restr.make [0] true, 1, none⟩ : Inp).expected
      = .ok (c :: x :: xs) := by
    simp only [Inp.expected]
    have : sliceSpec (Source.stream (255 :: c :: rest)).bytes 1 none = c :: rest := by
      simp [sliceSpec, Source.bytes]
    rw [this, readRestricted_spec ht hf hfn, ← hx]
    simp [restricted, escList, escByte, hfc, ho.mapId c hcf]
  rw [hview, hexp]
  intro h
  simp only [Except.ok.injEq] at h
  have := congrArg List.length h
  simp at this

/-- **C23, negation.** The empty slice at the end of a non-empty stream, with a forbidden byte and no null
termination, delivers the whole stream instead. -/
theorem stream_slice_end_broken (ps : Nat) (hps : 0 < ps) (t : List UInt8) (hne' : t ≠ []) (h255 : 255 ∉ t) :
    (⟨.stream t, Restr.make [0] false, t.length, none⟩ : Inp).asView ps
      = (⟨.stream t, Restr.make [0] false, 0, none⟩ : Inp).expected ∧
    (⟨.stream t, Restr.make [0] false, t.length, none⟩ : Inp).expected = .ok [] := by
  have hc : CanEscape (Restr.make [0] false) := canEscape_six _ _ (by simp)
  obtain ⟨f, u, ht, hf, hu, hfn, hun, ho⟩ := tableOf_of (restr_make_nodup [0] false) hc
  have hne : (Restr.make [0] false).esc ≠ [] := fun h => by simpa using make_esc_nil.1 h
  have ho := ho.resolve_left (fun h => hne h.1)
  obtain ⟨em, hem, heb⟩ := ho.escEm
  have he : f.escapeByte = 255 := by
    rw [← heb]
    exact escapeByte_255 hne (fun h => by simpa using mem_make.1 h) hem
  obtain ⟨m, hm, hmv, _⟩ := initStream_spec hps ht t
  have hres : restricted (Restr.make [0] false) f t = escList f t ++ [] := rfl
  constructor
  · have hsl : streamSlice (Restr.make [0] false) (restricted (Restr.make [0] false) f t) t.length none
        = .ok (restricted (Restr.make [0] false) f t) := by
      unfold streamSlice
      have hh : (Restr.make [0] false).hasNoEscape = false := by simpa [Restr.hasNoEscape] using hne
      simp only [hh, Bool.false_eq_true, if_false, hem, heb]
      rw [hres, scanEscaped_pass ho t.length t [] 0 0 (by rw [he]; exact h255) (by omega)]
      simp [scanEscaped, sliceV]
    simp only [Inp.asView, openStream, hm]
    rw [if_neg (by simpa using hne'), hmv, hsl]
    simp only [Inp.expected]
    have : sliceSpec (Source.stream t).bytes 0 none = t := by simp [sliceSpec, Source.bytes]
    rw [this, readRestricted_spec ht hf hfn]
  · simp only [Inp.expected]
    have : sliceSpec (Source.stream t).bytes t.length none = [] := by simp [sliceSpec, Source.bytes]
    rw [this, readRestricted_spec ht hf hfn]
    rfl

/-! ## Witnesses -/

example : GoodRequest [97, 0, 98] (.acquire [0] true 1 none) :=
  ⟨canEscape_six _ _ (by simp), .inr ⟨⟨by simp, by simp⟩, fun _ => rfl,
    fun _ => ⟨by simp, .inl rfl, by simp⟩⟩⟩

example : GoodRequest [97, 0, 98] (.acquire [] false 1 (some 3)) :=
  ⟨canEscape_six _ _ (by simp), .inr ⟨⟨by simp, by simp⟩, by simp, by simp⟩⟩

example : InRange [97, 98, 99, 100] 1 (some 3) ∧ InRange (sliceSpec [97, 98, 99, 100] 1 (some 3)) 1 (some 2) := by
  simp [InRange, sliceSpec]

end Tdc
