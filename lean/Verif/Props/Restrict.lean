import Verif.Lemmas.Restrict

/-!
# C18–C22: input restrictions

`Restr.make bs nt` is the restriction a caller builds from the forbidden bytes `bs` and the null termination
flag `nt`.  `ps` is the page size.  The four ways of restricting a text `t` are

* `initView ps r t 0 none`: an `Input` over memory, read as a view,
* `initFile ps r t 0 none`: an `Input` over a file with content `t`, read as a view,
* `initStream ps r t`: an `Input` over a stream delivering `t`, read as a view,
* `readRestricted r t`: an `Input` over memory or a file, read as a stream.

`CanEscape r` is what the code needs: among the 13 bytes of its pool there are enough that are not forbidden.
-/

namespace Tdc

/-- `out` is an admissible restricted form of `t`: some byte `e` that is not forbidden is used for escaping,
no forbidden byte occurs in the output apart from the terminating 0, and the length is the original length plus
one for every forbidden or escape byte plus one for the terminator. -/
def RestrictedForm (bs : List UInt8) (nt : Bool) (t out : List UInt8) : Prop :=
  ∃ body, out = body ++ (if nt then [0] else []) ∧ (∀ b ∈ bs, b ∉ body) ∧
    ((bs = [] ∧ body = t) ∨
      ∃ e, e ∉ bs ∧ body.length = t.length + t.countP (fun b => b == e || bs.contains b))

theorem make_nil (nt : Bool) : Restr.make [] nt = ⟨[], nt⟩ := by
  simp [Restr.make, sortDedup, uniq]

theorem make_esc_nil {bs : List UInt8} {nt : Bool} : (Restr.make bs nt).esc = [] ↔ bs = [] := by
  constructor
  · intro h
    cases bs with
    | nil => rfl
    | cons b bs =>
      have : b ∈ (Restr.make (b :: bs) nt).esc := mem_sortDedup.2 (by simp)
      rw [h] at this
      simp at this
  · rintro rfl
    rw [make_nil]

theorem mem_make {bs : List UInt8} {nt : Bool} {b : UInt8} : b ∈ (Restr.make bs nt).esc ↔ b ∈ bs :=
  mem_sortDedup

/-- Up to six forbidden bytes, whichever they are, can always be escaped. -/
theorem canEscape_six (bs : List UInt8) (nt : Bool) (h : bs.length ≤ 6) : CanEscape (Restr.make bs nt) := by
  right
  have h1 := filter_not_contains_length (Restr.make bs nt).esc escapePool (by decide)
  have h2 : (Restr.make bs nt).esc.length ≤ bs.length :=
    ((restr_make_nodup bs nt).subperm (fun b hb => mem_make.1 hb)).length_le
  have h3 : escapePool.length = 13 := rfl
  omega

/-- The restricted form of `t` computed by the tables of `r` is admissible. -/
theorem restricted_form {bs : List UInt8} {nt : Bool} {f : FastEsc} {u : FastUnesc}
    (ht : tableOf (Restr.make bs nt) f)
    (ho : ((Restr.make bs nt).esc = [] ∧ u = ⟨fun b => b, 255, nt, false⟩) ∨ EscOk (Restr.make bs nt) f u)
    (t : List UInt8) : RestrictedForm bs nt t (restricted (Restr.make bs nt) f t) := by
  refine ⟨escList f t, rfl, ?_⟩
  rcases ho with ⟨hne, _⟩ | ho
  · have hbs := make_esc_nil.1 hne
    subst hbs
    refine ⟨by simp, .inl ⟨rfl, ?_⟩⟩
    rcases ht with ⟨_, h1, h2⟩ | ⟨h1, _⟩
    · exact escList_id h1 h2 t
    · exact absurd hne h1
  · constructor
    · intro b hb hmem
      obtain ⟨c, _, hc⟩ := List.mem_flatMap.1 hmem
      have hb' : b ∈ (Restr.make bs nt).esc := mem_make.2 hb
      by_cases hfl : c = f.escapeByte ∨ c ∈ (Restr.make bs nt).esc
      · have h1 := ho.flag c
        rw [if_pos hfl] at h1
        simp only [escByte, h1] at hc
        simp only [ne_eq, one_ne_zero, not_false_eq_true, if_true, List.mem_cons, List.not_mem_nil, or_false] at hc
        rcases hc with rfl | rfl
        · exact ho.escFree hb'
        · exact ho.mapFree c hfl hb'
      · have h1 := ho.flag c
        rw [if_neg hfl] at h1
        simp only [escByte, h1] at hc
        simp only [ne_eq, not_true_eq_false, if_false, List.mem_singleton] at hc
        rw [ho.mapId c hfl] at hc
        subst hc
        exact hfl (.inr hb')
    · right
      refine ⟨f.escapeByte, fun h => ho.escFree (mem_make.2 h), ?_⟩
      induction t with
      | nil => simp [escList]
      | cons c t ih =>
        simp only [escList, List.flatMap_cons, List.length_append, List.length_cons, List.countP_cons] at ih ⊢
        rw [ih, escByte_length ho.flag01, ho.flag c]
        by_cases hfl : c = f.escapeByte ∨ c ∈ (Restr.make bs nt).esc
        · have : (c == f.escapeByte || bs.contains c) = true := by
            rcases hfl with h | h
            · simp [h]
            · simp [mem_make.1 h]
          rw [if_pos hfl, if_pos this]; omega
        · have : ¬ (c == f.escapeByte || bs.contains c) = true := by
            intro h
            apply hfl
            simp at h
            rcases h with h | h
            · exact .inl h
            · exact .inr (mem_make.2 h)
          rw [if_neg hfl, if_neg this]; omega

/-- **C19, C20 (positive part).** Whatever the kind of source (memory, file, stream) and however it is read
(as a view or as a stream), a restricted input delivers the same bytes, and these satisfy the restriction.
Partial: the pool must offer enough replacement bytes (`restrict_needs_pool` shows this is necessary,
`canEscape_six` that six forbidden bytes are always fine). -/
theorem restrict_agree_partial (ps : Nat) (hps : 0 < ps) (bs : List UInt8) (nt : Bool)
    (hc : CanEscape (Restr.make bs nt)) (t : List UInt8) :
    ∃ out, RestrictedForm bs nt t out ∧
      initView ps (Restr.make bs nt) t 0 none = .ok out ∧
      initFile ps (Restr.make bs nt) t 0 none = .ok out ∧
      (∃ m, initStream ps (Restr.make bs nt) t = .ok m ∧ m.view = out) ∧
      readRestricted (Restr.make bs nt) t = .ok out := by
  obtain ⟨f, u, ht, hf, hu, hfn, hun, ho⟩ := tableOf_of (restr_make_nodup bs nt) hc
  have hs : sliceV t 0 none = .ok t := by simp [sliceV]
  obtain ⟨m, hm, hmv, _⟩ := initStream_spec hps ht t
  refine ⟨restricted (Restr.make bs nt) f t, restricted_form ht ho t, initView_spec hps ht hs,
    initFile_spec hps ht hs ?_, ⟨m, hm, hmv⟩, readRestricted_spec ht hf hfn t⟩
  have h1 := pageRound_ge hps ((restricted (Restr.make bs nt) f t).length + (0 - nextValidOffset ps 0))
  have h2 := length_le_escList ht.flag01 t
  have h3 : (restricted (Restr.make bs nt) f t).length
      = (escList f t).length + (if (Restr.make bs nt).nt then 1 else 0) := by
    rw [restricted, List.length_append, ntList_length]
  omega

/-- **C18.** A text restricted in any of the ways and then written, in any chunking, to an output with the same
restriction comes back unchanged. -/
theorem restrict_output_roundtrip_partial (bs : List UInt8) (nt : Bool) (hc : CanEscape (Restr.make bs nt))
    (t out : List UInt8) (hr : readRestricted (Restr.make bs nt) t = .ok out)
    (chunks : List (List UInt8)) (hch : chunks.flatten = out) :
    writeUnrestricted (Restr.make bs nt) chunks = .ok t := by
  obtain ⟨f, u, ht, hf, hu, hfn, hun, ho⟩ := tableOf_of (restr_make_nodup bs nt) hc
  rw [readRestricted_spec ht hf hfn t] at hr
  simp only [Except.ok.injEq] at hr
  exact writeUnrestricted_spec ht hu hun ho t chunks (hch.trans hr.symm)

/-- **C18, buffers.** `unrestrict` on a stream buffer returns the original text — except that a restriction
with null termination only mistakes data bytes 255 for escapes (`unrestrict_null_only_broken`). -/
theorem unrestrict_restrict_partial (ps : Nat) (hps : 0 < ps) (bs : List UInt8) (nt : Bool)
    (hc : CanEscape (Restr.make bs nt)) (t : List UInt8) (hok : bs ≠ [] ∨ nt = false ∨ 255 ∉ t) :
    ∃ m m', initStream ps (Restr.make bs nt) t = .ok m ∧ unrestrict ps (Restr.make bs nt) m = .ok m' ∧
      m'.view = t := by
  obtain ⟨f, u, ht, hf, hu, hfn, hun, ho⟩ := tableOf_of (restr_make_nodup bs nt) hc
  obtain ⟨m, hm, hmh⟩ := initStream_spec hps ht t
  have key : ∃ m', unrestrict ps (Restr.make bs nt) m = .ok m' ∧ Holds m' t := by
    by_cases hnone : (Restr.make bs nt).hasNone = true
    · simp only [Restr.hasNone, Restr.hasNoEscape, Bool.and_eq_true, List.isEmpty_iff, beq_iff_eq] at hnone
      have hid : restricted (Restr.make bs nt) f t = t := by
        rcases ht with ⟨_, h1, h2⟩ | ⟨h1, _⟩
        · rw [restricted, escList_id h1 h2, ntList, hnone.2]; simp
        · exact absurd hnone.1 h1
      rw [hid] at hmh
      exact ⟨m, by simp [unrestrict, Restr.hasNone, Restr.hasNoEscape, hnone.1, hnone.2], hmh⟩
    · refine unrestrict_spec hps ht hu hmh ?_
      intro c hct
      rcases ho with ⟨hne, rfl⟩ | ho
      · have hbs := make_esc_nil.1 hne
        left
        constructor
        · rcases ht with ⟨_, h1, h2⟩ | ⟨h1, _⟩
          · simp [escByte, h1, h2]
          · exact absurd hne h1
        · intro h255
          simp only at h255
          subst h255
          rcases hok with h | h | h
          · exact h hbs
          · apply hnone
            rw [hbs, h, make_nil]
            rfl
          · exact h hct
      · exact ho.undo c
  obtain ⟨m', h1, h2⟩ := key
  exact ⟨m, m', hm, h1, h2.1⟩

/-- **C18, negation.** With null termination only, *every* text containing the byte 255 is damaged by
`unrestrict`: it reads outside the buffer, or returns something else than the text. -/
theorem unrestrict_null_only_broken (ps : Nat) (hps : 0 < ps) (t : List UInt8) (h : 255 ∈ t) :
    ∃ m, initStream ps (Restr.make [] true) t = .ok m ∧
      ∀ m', unrestrict ps (Restr.make [] true) m = .ok m' → m'.view ≠ t := by
  have hn := restr_make_nodup [] true
  obtain ⟨f, u, ht, hf, hu, hfn, hun, ho⟩ := tableOf_of hn (.inl (by rw [make_nil]))
  obtain ⟨m, hm, hmv, hms, hmb⟩ := initStream_spec hps ht t
  refine ⟨m, hm, ?_⟩
  intro m' hm' heq
  have hue : u.escapeByte = 255 := by
    have : fastUnescOf (Restr.make [] true) = .ok ⟨fun b => b, 255, true, false⟩ := by
      simp [fastUnescOf, EscMap.make, Restr.make, sortDedup, uniq, FastUnesc.make, fastUnescLoop,
        EscMap.escapeByte, EscMap.hasEscape]
    rw [this] at hu
    simp only [Except.ok.injEq] at hu
    rw [← hu]
  have hres : restricted (Restr.make [] true) f t = t ++ [0] := by
    rcases ht with ⟨_, h1, h2⟩ | ⟨h1, _⟩
    · rw [restricted, escList_id h1 h2]; rfl
    · exact absurd (by rw [make_nil]) h1
  rw [hres] at hmv hms
  obtain ⟨post, hb⟩ := (show Holds m (t ++ [0]) from ⟨hmv, hms, hmb⟩).bytes
  unfold unrestrict at hm'
  have hnn : (Restr.make [] true).hasNone = false := by rw [make_nil]; rfl
  rw [hnn] at hm'
  simp only [Bool.false_eq_true, if_false, hu] at hm'
  have hnt : (Restr.make [] true).nt = true := rfl
  rw [hnt] at hm'
  simp only [if_true] at hm'
  split at hm'
  · simp at hm'
  · rename_i rp wp b' hl
    obtain ⟨h1, h2, h3, h4, h5⟩ := unrestrictLoop_shrinks u _ _ _ _ _ _ _ _ (Nat.le_refl 0) hl
    have hsz : m.size = t.length + 1 := by rw [hms]; simp
    have hlt : wp < t.length := by
      rcases Nat.lt_or_ge wp t.length with h | h'
      · exact h
      · exfalso
        obtain ⟨i, hi, hie⟩ := List.mem_iff_getElem.1 h
        have := h5 (by omega) i (by omega) (by omega)
        apply this
        rw [hb, hue, List.append_assoc, List.getElem?_append_left hi, List.getElem?_eq_getElem hi, hie]
    simp only [Except.ok.injEq] at hm'
    subst hm'
    have hl2 := congrArg List.length heq
    simp only [Mem.view, Mem.remap, List.length_take] at hl2
    omega

/-- **C18–C20, necessity of the pool condition.** If the pool does not offer enough replacement bytes, no
non-empty restriction can be applied to any text, not even the empty one: building the tables throws or
accesses memory out of bounds. -/
theorem restrict_needs_pool (ps : Nat) (bs : List UInt8) (nt : Bool) (h : ¬ CanEscape (Restr.make bs nt))
    (t : List UInt8) :
    (∃ e, initView ps (Restr.make bs nt) t 0 none = .error e) ∧
    (∃ e, initStream ps (Restr.make bs nt) t = .error e) ∧
    (∃ e, readRestricted (Restr.make bs nt) t = .error e) := by
  obtain ⟨e, he⟩ := fastEscOf_short h
  have hne : (Restr.make bs nt).esc ≠ [] := fun h' => h (.inl h')
  have h1 : (Restr.make bs nt).hasNoEscape = false := by simpa [Restr.hasNoEscape] using hne
  refine ⟨⟨e, ?_⟩, ⟨e, ?_⟩, ⟨e, ?_⟩⟩
  · simp [initView, sliceV, extraSize, h1, he]
  · simp [initStream, h1, he]
  · simp [readRestricted, Restr.hasNone, h1, he]

/-- The bytes `0..12` cannot all be forbidden. -/
theorem restrict_thirteen_broken :
    ¬ CanEscape (Restr.make [0, 1, 2, 3, 4, 5, 6, 7, 8, 9, 10, 11, 12] true) := by
  intro h
  rcases h with h | h
  · rw [make_esc_nil] at h
    simp at h
  · have h1 : (escapePool.filter fun b =>
        !((Restr.make [0, 1, 2, 3, 4, 5, 6, 7, 8, 9, 10, 11, 12] true).esc.contains b)).length ≤ 13 :=
      List.length_filter_le _ _
    have h2 : 13 ≤ (Restr.make [0, 1, 2, 3, 4, 5, 6, 7, 8, 9, 10, 11, 12] true).esc.length := by
      have : ([0, 1, 2, 3, 4, 5, 6, 7, 8, 9, 10, 11, 12] : List UInt8).Subperm
          (Restr.make [0, 1, 2, 3, 4, 5, 6, 7, 8, 9, 10, 11, 12] true).esc :=
        List.Nodup.subperm (by decide) (fun b hb => mem_make.2 hb)
      simpa using this.length_le
    omega

/-! ## C21: combining restrictions -/

/-- **C21.** The escape bytes of a restriction are strictly ascending, contain exactly the given bytes, and `==`
is equality of the sets of bytes and of the flags. -/
theorem restr_canonical (bs : List UInt8) (nt : Bool) :
    (Restr.make bs nt).esc.Pairwise (· < ·) ∧ (∀ b, b ∈ (Restr.make bs nt).esc ↔ b ∈ bs) ∧
    ∀ bs' nt', (Restr.make bs nt).eqv (Restr.make bs' nt') = true ↔
      ((∀ b, b ∈ bs ↔ b ∈ bs') ∧ nt = nt') := by
  refine ⟨sortDedup_sorted bs, fun b => mem_make, fun bs' nt' => ?_⟩
  simp only [Restr.eqv, Bool.and_eq_true, beq_iff_eq]
  constructor
  · rintro ⟨h1, h2⟩
    refine ⟨fun b => ?_, h2⟩
    rw [← mem_make (nt := nt), h1, mem_make]
  · rintro ⟨h1, h2⟩
    refine ⟨sorted_ext (sortDedup_sorted _) (sortDedup_sorted _) ?_, h2⟩
    intro b
    rw [mem_make, mem_make, h1]

/-- **C21.** `a | b` is the restriction built from the union of the bytes and the disjunction of the flags. -/
theorem restr_or_spec (bs bs' : List UInt8) (nt nt' : Bool) :
    (Restr.make bs nt).or (Restr.make bs' nt') = Restr.make (bs ++ bs') (nt || nt') := by
  unfold Restr.or
  simp only
  have : sortDedup (Restr.make ((Restr.make bs nt).esc ++ (Restr.make bs' nt').esc)
      ((Restr.make bs nt).nt || (Restr.make bs' nt').nt)).esc = sortDedup (bs ++ bs') := by
    apply sorted_ext (sortDedup_sorted _) (sortDedup_sorted _)
    intro b
    rw [mem_sortDedup, mem_make, mem_sortDedup, List.mem_append, List.mem_append, mem_make, mem_make]
  rw [this]
  rfl

/-- **C21.** `|` is associative, commutative, idempotent and has the empty restriction as its unit. -/
theorem restr_or_algebra (a b c : List UInt8) (x y z : Bool) :
    ((Restr.make a x).or (Restr.make b y)).or (Restr.make c z)
      = (Restr.make a x).or ((Restr.make b y).or (Restr.make c z)) ∧
    (Restr.make a x).or (Restr.make b y) = (Restr.make b y).or (Restr.make a x) ∧
    (Restr.make a x).or (Restr.make a x) = Restr.make a x ∧
    (Restr.make a x).or (Restr.make [] false) = Restr.make a x ∧
    (Restr.make [] false).or (Restr.make a x) = Restr.make a x := by
  have ext : ∀ (l l' : List UInt8) (n n' : Bool), (∀ b, b ∈ l ↔ b ∈ l') → n = n' →
      Restr.make l n = Restr.make l' n' := by
    intro l l' n n' h hn
    subst hn
    unfold Restr.make
    rw [sorted_ext (sortDedup_sorted l) (sortDedup_sorted l') (by simpa [mem_sortDedup] using h)]
  simp only [restr_or_spec]
  refine ⟨ext _ _ _ _ (by simp [or_assoc]) (by simp [Bool.or_assoc]),
    ext _ _ _ _ (by simp [or_comm]) (Bool.or_comm _ _), ext _ _ _ _ (by simp) (by simp),
    ext _ _ _ _ (by simp) (by simp), ext _ _ _ _ (by simp) (by simp)⟩

example : (Restr.make [3, 1, 3] false).or (Restr.make [2, 1] true) = Restr.make [1, 2, 3] true := by
  rw [restr_or_spec]
  unfold Restr.make
  rw [sorted_ext (sortDedup_sorted _) (sortDedup_sorted [1, 2, 3])
    (by intro b; simp only [mem_sortDedup]; simp; tauto)]
  rfl

/-! ## C22: changing restrictions -/

/-- One change of restrictions on a stream buffer holding the restricted text. -/
theorem change_step {ps : Nat} (hps : 0 < ps) {bs bs' : List UInt8} {nt nt' : Bool}
    {t : List UInt8} (hok : bs ≠ [] ∨ nt = false ∨ 255 ∉ t) {f f' : FastEsc} {u : FastUnesc}
    (ht : tableOf (Restr.make bs nt) f) (hu : fastUnescOf (Restr.make bs nt) = .ok u)
    (ho : ((Restr.make bs nt).esc = [] ∧ u = ⟨fun b => b, 255, nt, false⟩) ∨ EscOk (Restr.make bs nt) f u)
    (ht' : tableOf (Restr.make bs' nt') f')
    {m : Mem} (hm : Holds m (restricted (Restr.make bs nt) f t)) :
    ∃ m', changeRestrictions ps (Restr.make bs nt) (Restr.make bs' nt') m = .ok m' ∧
      Holds m' (restricted (Restr.make bs' nt') f' t) := by
  have key : ∃ m', unrestrict ps (Restr.make bs nt) m = .ok m' ∧ Holds m' t := by
    by_cases hnone : (Restr.make bs nt).hasNone = true
    · have hnone' := hnone
      simp only [Restr.hasNone, Restr.hasNoEscape, Bool.and_eq_true, List.isEmpty_iff, beq_iff_eq] at hnone
      have hid : restricted (Restr.make bs nt) f t = t := by
        rcases ht with ⟨_, h1, h2⟩ | ⟨h1, _⟩
        · rw [restricted, escList_id h1 h2, ntList, hnone.2]; simp
        · exact absurd hnone.1 h1
      rw [hid] at hm
      exact ⟨m, by simp [unrestrict, hnone'], hm⟩
    · refine unrestrict_spec hps ht hu hm ?_
      intro c hct
      rcases ho with ⟨hne, rfl⟩ | ho
      · have hbs := make_esc_nil.1 hne
        left
        constructor
        · rcases ht with ⟨_, h1, h2⟩ | ⟨h1, _⟩
          · simp [escByte, h1, h2]
          · exact absurd hne h1
        · intro h255
          simp only at h255
          subst h255
          rcases hok with h | h | h
          · exact h hbs
          · apply hnone
            rw [hbs, h, make_nil]
            rfl
          · exact h hct
      · exact ho.undo c
  obtain ⟨m1, h1, h2⟩ := key
  unfold changeRestrictions
  rw [h1]
  simp only
  exact restrictMem_spec hps ht' (by split <;> simp_all [Restr.hasNone, Restr.hasNoEscape]) h2

/-- Apply a history of `change_restrictions` calls. -/
def changeAll (ps : Nat) : Restr → List Restr → Mem → Res Mem
  | _, [], m => .ok m
  | old, r :: rs, m =>
    match changeRestrictions ps old r m with
    | .error e => .error e
    | .ok m => changeAll ps r rs m

theorem changeAll_spec (ps : Nat) (hps : 0 < ps) (t : List UInt8) :
    ∀ (hist : List (List UInt8 × Bool)) (bs : List UInt8) (nt : Bool) (m : Mem),
      CanEscape (Restr.make bs nt) → (∀ h ∈ hist, CanEscape (Restr.make h.1 h.2)) →
      (255 ∉ t ∨ ∀ h ∈ ((bs, nt) :: hist).dropLast, h.1 ≠ [] ∨ h.2 = false) →
      readRestricted (Restr.make bs nt) t = .ok m.view → m.size = m.view.length →
      ∃ m', changeAll ps (Restr.make bs nt) (hist.map fun h => Restr.make h.1 h.2) m = .ok m' ∧
        readRestricted (let l := ((bs, nt) :: hist).getLast (by simp); Restr.make l.1 l.2) t = .ok m'.view := by
  intro hist
  induction hist with
  | nil => intro bs nt m hc _ _ hr hs; exact ⟨m, rfl, hr⟩
  | cons h hist ih =>
    obtain ⟨bs', nt'⟩ := h
    intro bs nt m hc hcs hok hr hs
    obtain ⟨f, u, ht, hf, hu, hfn, hun, ho⟩ := tableOf_of (restr_make_nodup bs nt) hc
    have hc' := hcs (bs', nt') (by simp)
    obtain ⟨f', u', ht', hf', hu', hfn', hun', ho'⟩ := tableOf_of (restr_make_nodup bs' nt') hc'
    rw [readRestricted_spec ht hf hfn t] at hr
    simp only [Except.ok.injEq] at hr
    have hholds : Holds m (restricted (Restr.make bs nt) f t) := by
      refine ⟨hr.symm, by rw [hs, hr], ?_⟩
      have := List.length_take_le m.size m.bytes
      have h2 : (m.bytes.take m.size).length = m.size := hs.symm
      rw [List.length_take] at h2
      omega
    obtain ⟨m1, h1, h2⟩ := change_step hps (by
      rcases hok with h | h
      · exact .inr (.inr h)
      · rcases h (bs, nt) (by simp) with h | h
        · exact .inl h
        · exact .inr (.inl h)) ht hu ho ht' hholds
    obtain ⟨m2, h3, h4⟩ := ih bs' nt' m1 hc' (fun h hh => hcs h (by simp [hh])) (by
      rcases hok with h | h
      · exact .inl h
      · exact .inr (fun x hx => h x (by simp only [List.dropLast_cons_cons, List.mem_cons]; exact .inr hx)))
      (by rw [readRestricted_spec ht' hf' hfn' t, h2.1]) (by rw [h2.1]; exact h2.2.1)
    refine ⟨m2, ?_, ?_⟩
    · simp only [List.map_cons, changeAll, h1]
      exact h3
    · simpa using h4

/-- **C22.** Read a stream under one restriction and change the restriction any number of times: the buffer
always holds exactly what restricting the original text directly with the last restriction gives.
Partial: texts containing the byte 255 are excluded if a null-termination-only restriction occurs before the last
one (`change_restrictions_null_only_broken`), and every restriction must be escapable. -/
theorem change_restrictions_partial (ps : Nat) (hps : 0 < ps) (t : List UInt8)
    (bs : List UInt8) (nt : Bool) (hist : List (List UInt8 × Bool))
    (hc : ∀ h ∈ (bs, nt) :: hist, CanEscape (Restr.make h.1 h.2))
    (hok : 255 ∉ t ∨ ∀ h ∈ ((bs, nt) :: hist).dropLast, h.1 ≠ [] ∨ h.2 = false) :
    ∃ m m' mNew, initStream ps (Restr.make bs nt) t = .ok m ∧
      changeAll ps (Restr.make bs nt) (hist.map fun h => Restr.make h.1 h.2) m = .ok m' ∧
      initStream ps (let l := ((bs, nt) :: hist).getLast (by simp); Restr.make l.1 l.2) t = .ok mNew ∧
      m'.view = mNew.view := by
  have hc0 := hc (bs, nt) (by simp)
  obtain ⟨f, u, ht, hf, hu, hfn, hun, ho⟩ := tableOf_of (restr_make_nodup bs nt) hc0
  obtain ⟨m, hm, hmv, hms, hmb⟩ := initStream_spec hps ht t
  obtain ⟨m', h1, h2⟩ := changeAll_spec ps hps t hist bs nt m hc0 (fun h hh => hc h (by simp [hh])) hok
    (by rw [readRestricted_spec ht hf hfn t, hmv]) (by rw [hmv, hms])
  obtain ⟨out, _, _, _, ⟨mNew, h3, h4⟩, h5⟩ := restrict_agree_partial ps hps
    (((bs, nt) :: hist).getLast (by simp)).1 (((bs, nt) :: hist).getLast (by simp)).2
    (hc _ (List.getLast_mem _)) t
  refine ⟨m, m', mNew, hm, h1, h3, ?_⟩
  simp only at h2
  rw [h5] at h2
  simp only [Except.ok.injEq] at h2
  rw [h4, h2]

/-- **C22, negation.** A stream read with null termination only and then without restrictions never gives a
text containing the byte 255 back. -/
theorem change_restrictions_null_only_broken (ps : Nat) (hps : 0 < ps) (t : List UInt8) (h : 255 ∈ t) :
    ∃ m, initStream ps (Restr.make [] true) t = .ok m ∧
      ∀ m', changeRestrictions ps (Restr.make [] true) (Restr.make [] false) m = .ok m' → m'.view ≠ t := by
  obtain ⟨m, hm, hbad⟩ := unrestrict_null_only_broken ps hps t h
  refine ⟨m, hm, ?_⟩
  intro m' hm'
  unfold changeRestrictions at hm'
  split at hm'
  · simp at hm'
  · rename_i m1 h1
    have : restrictMem ps (if (Restr.make [] true).hasNone then Restr.make [] true else ⟨[], false⟩)
        (Restr.make [] false) m1 = .ok m1 := by simp only [make_nil]; rfl
    rw [this] at hm'
    simp only [Except.ok.injEq] at hm'
    subst hm'
    exact hbad _ h1

/-! ## Witnesses -/

-- The restriction `{0}`, null terminated, used by all suffix array based compressors.
example : CanEscape (Restr.make [0] true) := canEscape_six _ _ (by simp)

example : ∃ out, readRestricted (Restr.make [0] true) [97, 0, 255] = .ok out ∧
    writeUnrestricted (Restr.make [0] true) [out] = .ok [97, 0, 255] := by
  obtain ⟨out, _, _, _, _, h⟩ := restrict_agree_partial 4096 (by omega) [0] true (canEscape_six _ _ (by simp))
    [97, 0, 255]
  exact ⟨out, h, restrict_output_roundtrip_partial [0] true (canEscape_six _ _ (by simp)) _ _ h [out] (by simp)⟩

end Tdc
