import Verif.Model.Output
import Verif.Props.Restrict

/-!
# C74: an output collects what its streams are given
-/

namespace Tdc
namespace OUT

/-- `steps` write the text `t` to an output with the bytes `bs` escaped and null termination `nt`: each session is given the restricted
form of its part of the text (as an input with these restrictions delivers it), in any chunks. Restrictions add up. -/
def Writes : List UInt8 → Bool → List Step → List UInt8 → Prop
  | _, _, [], t => t = []
  | bs, nt, .restrict bs' nt' :: l, t => Writes (bs ++ bs') (nt || nt') l t
  | bs, nt, .write chunks :: l, t => ∃ t1 t2, t = t1 ++ t2 ∧ CanEscape (Restr.make bs nt) ∧
      readRestricted (Restr.make bs nt) t1 = .ok chunks.flatten ∧ Writes bs nt l t2

theorem vecWrite_eq (cs : List UInt8) : ∀ buf, vecWrite buf cs = buf ++ cs := by
  induction cs with
  | nil => intro buf; simp [vecWrite]
  | cons c cs ih => intro buf; rw [vecWrite, ih]; simp

theorem session_writes {bs : List UInt8} {nt : Bool} (k : Kind) (ow : Bool) (acc : Bool) (hk : k = .file → acc = true) (sink : Option (List UInt8))
    (chunks : List (List UInt8)) (t : List UInt8) (hc : CanEscape (Restr.make bs nt))
    (hr : readRestricted (Restr.make bs nt) t = .ok chunks.flatten) :
    (Handle.mk k ow (Restr.make bs nt)).session acc sink chunks =
      .ok ((if k = .file ∧ ow then [] else sink.getD []) ++ t) := by
  have e := restrict_output_roundtrip_partial bs nt hc t _ hr chunks rfl
  cases k with
  | file =>
    rw [hk rfl]
    cases ow <;> simp [Handle.session, Handle.open, Except.bind, e, Except.map, vecWrite_eq]
  | memory => simp [Handle.session, Handle.open, Except.bind, e, Except.map, vecWrite_eq]
  | stream => simp [Handle.session, Handle.open, Except.bind, e, Except.map, vecWrite_eq]

theorem run_append (k : Kind) (acc : Bool) (hk : k = .file → acc = true) (l : List Step) : ∀ (bs : List UInt8) (nt : Bool) (sink : Option (List UInt8))
    (t : List UInt8), Writes bs nt l t →
    ∃ h s, run acc (Handle.mk k false (Restr.make bs nt)) sink l = .ok (h, s) ∧ s.getD [] = sink.getD [] ++ t := by
  induction l with
  | nil =>
    intro bs nt sink t h
    have h : t = [] := h
    exact ⟨_, sink, rfl, by simp [h]⟩
  | cons x l ih =>
    intro bs nt sink t h
    cases x with
    | restrict bs' nt' =>
      obtain ⟨h', s, e1, e2⟩ := ih (bs ++ bs') (nt || nt') sink t h
      exact ⟨h', s, by rw [run, Handle.unrestrict]; simp only; rw [restr_or_spec]; exact e1, e2⟩
    | write chunks =>
      obtain ⟨t1, t2, rfl, hc, hr, hw⟩ := h
      have e := session_writes k false acc hk sink chunks t1 hc hr
      obtain ⟨h', s, e1, e2⟩ := ih bs nt (some (sink.getD [] ++ t1)) t2 hw
      refine ⟨h', s, ?_, by rw [e2]; simp⟩
      rw [run, e]
      have ho : (Handle.mk k false (Restr.make bs nt)).opened = Handle.mk k false (Restr.make bs nt) := by
        cases k <;> rfl
      simp only [ho, Except.bind, Bool.false_eq_true, and_false, if_false]
      exact e1

theorem run_some {acc : Bool} (l : List Step) : ∀ (hd : Handle) (s0 : List UInt8) (hd' : Handle) (s' : Option (List UInt8)),
    run acc hd (some s0) l = .ok (hd', s') → ∃ x, s' = some x := by
  induction l with
  | nil =>
    intro hd s0 hd' s' h
    simp only [run, Except.ok.injEq, Prod.mk.injEq] at h
    exact ⟨s0, h.2.symm⟩
  | cons x l ih =>
    intro hd s0 hd' s' h
    cases x with
    | restrict bs nt => exact ih _ _ _ _ h
    | write ch =>
      rw [run] at h
      cases hq : hd.session acc (some s0) ch with
      | error e => rw [hq] at h; exact absurd h (by simp [Except.bind])
      | ok y => rw [hq] at h; exact ih _ _ _ _ h

/-- **C74.** A memory buffer or a stream: whatever sessions a program opens on the output, and whatever restrictions it puts on it in between,
the sink ends up with its old contents and the texts written, in order, unescaped; `tellp` of a memory stream is the size of the buffer. -/
theorem output_memory_stream (k : Kind) (hk : k ≠ .file) (acc : Bool) (old : List UInt8) (l : List Step) (t : List UInt8)
    (hw : Writes [] false l t) :
    ∃ h, run acc ⟨k, false, Restr.make [] false⟩ (some old) l = .ok (h, some (old ++ t)) ∧ tellpMemory (old ++ t) = old.length + t.length := by
  obtain ⟨h, s, e1, e2⟩ := run_append k acc (fun h => absurd h hk) l [] false (some old) t hw
  refine ⟨h, ?_, by rw [tellpMemory, List.length_append]⟩
  obtain ⟨x, rfl⟩ := run_some l _ _ _ _ e1
  simp only [Option.getD_some] at e2
  rw [e1, e2]

/-- **C74.** A file that is appended to: it ends up with its old contents (nothing, if it did not exist) and the texts, in order. -/
theorem output_file_append (old : Option (List UInt8)) (l : List Step) (t : List UInt8) (hw : Writes [] false l t) :
    ∃ h s, run true (Handle.ofPath false) old l = .ok (h, s) ∧ s.getD [] = old.getD [] ++ t :=
  run_append .file true (fun _ => rfl) l [] false old t hw

/-- **C74.** A file that is overwritten: as soon as one session has been opened the file holds the texts of all sessions, in order, and nothing of
its old contents. -/
theorem output_file_overwrite (old : Option (List UInt8)) (l : List Step) (t : List UInt8) (hw : Writes [] false l t)
    (hopen : ∃ ch, Step.write ch ∈ l) :
    ∃ h, run true (Handle.ofPath true) old l = .ok (h, some t) := by
  have key : ∀ (l : List Step) (bs : List UInt8) (nt : Bool) (t : List UInt8), Writes bs nt l t → (∃ ch, Step.write ch ∈ l) →
      ∃ h, run true ⟨.file, true, Restr.make bs nt⟩ old l = .ok (h, some t) := by
    intro l
    induction l with
    | nil => intro bs nt t _ h; obtain ⟨ch, h⟩ := h; cases h
    | cons x l ih =>
      intro bs nt t hw ho
      cases x with
      | restrict bs' nt' =>
        obtain ⟨h', e⟩ := ih (bs ++ bs') (nt || nt') t hw (by
          obtain ⟨ch, h⟩ := ho
          rcases List.mem_cons.mp h with h | h
          · cases h
          · exact ⟨ch, h⟩)
        exact ⟨h', by rw [run, Handle.unrestrict]; simp only; rw [restr_or_spec]; exact e⟩
      | write chunks =>
        obtain ⟨t1, t2, rfl, hc, hr, hw⟩ := hw
        have e := session_writes .file true true (fun _ => rfl) old chunks t1 hc hr
        obtain ⟨h', s, e1, e2⟩ := run_append .file true (fun _ => rfl) l bs nt (some t1) t2 hw
        obtain ⟨x, rfl⟩ := run_some l _ _ _ _ e1
        simp only [Option.getD_some] at e2
        subst e2
        refine ⟨h', ?_⟩
        rw [run, e]
        simpa [Except.bind, Handle.opened] using e1
  exact key l [] false t hw hopen

/-! ### Limits -/

/-- **C74 (limit).** A restricted copy of an overwriting output overwrites as well: what was written through the original meanwhile is lost.
(The driver assigns the copy to the same variable before it opens a stream, which is the case of `output_file_overwrite`.) -/
theorem output_copy_truncates (old : Option (List UInt8)) (a b : List UInt8) :
    let h := Handle.ofPath true
    let h' := h.unrestrict (Restr.make [] false)
    ∃ s, h.session true old [a] = .ok s ∧ s = a ∧ h'.session true (some s) [b] = .ok b := by
  intro h h'
  have hr : ∀ t : List UInt8, readRestricted (Restr.make [] false) t = .ok [t].flatten := by
    intro t
    rw [make_nil, List.flatten_cons, List.flatten_nil, List.append_nil]
    rfl
  have hc : CanEscape (Restr.make [] false) := by rw [make_nil]; exact Or.inl rfl
  refine ⟨a, ?_, rfl, ?_⟩
  · have := session_writes .file true true (fun _ => rfl) old [a] a hc (hr a)
    simpa [h, Handle.ofPath] using this
  · have e : h' = ⟨.file, true, Restr.make [] false⟩ := by
      show Handle.unrestrict (Handle.ofPath true) (Restr.make [] false) = _
      rw [Handle.unrestrict, Handle.ofPath]
      simp only
      rw [restr_or_spec]
      rfl
    rw [e]
    simpa using session_writes .file true true (fun _ => rfl) (some a) [b] b hc (hr b)

/-- **C74 (limit).** A file that could not be opened at first is not overwritten later: the failed attempt has cleared the flag, and the next
stream appends to the old contents. -/
theorem output_failed_open_appends (old : List UInt8) (b : List UInt8) :
    (Handle.ofPath true).session false (some old) [b] = .error .throw ∧
    (Handle.ofPath true).opened.session true (some old) [b] = .ok (old ++ b) := by
  have hr : readRestricted (Restr.make [] false) b = .ok [b].flatten := by
    rw [make_nil, List.flatten_cons, List.flatten_nil, List.append_nil]
    rfl
  have hc : CanEscape (Restr.make [] false) := by rw [make_nil]; exact Or.inl rfl
  refine ⟨rfl, ?_⟩
  have e := session_writes .file false true (fun _ => rfl) (some old) [b] b hc hr
  simp only [Bool.false_eq_true, and_false, if_false, Option.getD_some] at e
  exact e

-- the driver's decompression: `out = Output(out, {0}, nt)`, then one stream; the hypotheses are met for every text
example (t : List UInt8) : ∃ l, Writes [] false (.restrict [0] true :: l) t ∧ ∃ ch, Step.write ch ∈ l := by
  obtain ⟨out, _, _, _, _, h⟩ := restrict_agree_partial 4096 (by omega) [0] true (canEscape_six _ _ (by simp)) t
  exact ⟨[.write [out]], ⟨t, [], by simp, canEscape_six _ _ (by simp), by simpa using h, rfl⟩, _, List.mem_singleton.mpr rfl⟩

end OUT
end Tdc
