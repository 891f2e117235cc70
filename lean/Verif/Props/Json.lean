import Verif.Lemmas.Json
import Verif.Props.Stat

/-! # C69: the JSON of the report -/

namespace Tdc.Json

/-- A value is written as a JSON text of itself, if its strings hold no backslash and no control character, and its names no quote either.
`json_string_iff` shows that the first condition is necessary, `json_name` that the second is. -/
theorem json_text_partial (v : JV) (level : Nat) (h : v.Plain) : ∃ s, render v level = .ok s ∧ Text v s := render_ok v level h

/-- A string is written as a JSON text of itself exactly if it holds no backslash and no control character. -/
theorem json_string_iff (v : List UInt8) (level : Nat) : (∃ s, render (.str v) level = .ok s ∧ Text (.str v) s) ↔ ∀ c ∈ v, 32 ≤ c ∧ c ≠ 92 := by
  constructor
  · rintro ⟨s, h1, h2⟩
    rw [render, escape_ok] at h1
    simp only [Except.bind, Except.ok.injEq] at h1
    subst h1
    exact (chars_length (text_str h2)).2 (quoted_length v).symm
  · intro h
    exact render_ok (.str v) level (by rw [JV.Plain]; exact h)

/-- the text between the quotes stands for one string -/
theorem json_chars_unique {v v' s : List UInt8} (h : Chars v s) (h' : Chars v' s) : v = v' := by
  induction h generalizing v' with
  | nil => cases h'; rfl
  | plain h1 h2 h3 _ ih =>
    cases h' with
    | plain _ _ _ h => rw [ih h]
    | esc => exact absurd rfl h3
    | uni => exact absurd rfl h3
  | @esc e c v s hm _ ih =>
    generalize ht : 92 :: e :: s = t at h'
    cases h' with
    | nil => cases ht
    | plain h1 h2 h3 h =>
      simp only [List.cons.injEq] at ht
      exact absurd ht.1.symm h3
    | @esc e' c' v' s' hm' h =>
      simp only [List.cons.injEq, true_and] at ht
      obtain ⟨rfl, rfl⟩ := ht
      have : c = c' := by
        revert hm hm'
        simp only [escapes, List.mem_cons, Prod.mk.injEq, List.not_mem_nil, or_false]
        rintro (⟨rfl, rfl⟩ | ⟨rfl, rfl⟩ | ⟨rfl, rfl⟩ | ⟨rfl, rfl⟩ | ⟨rfl, rfl⟩ | ⟨rfl, rfl⟩ | ⟨rfl, rfl⟩ | ⟨rfl, rfl⟩) <;> simp <;> exact Eq.symm
      rw [this, ih h]
    | uni =>
      simp only [List.cons.injEq, true_and] at ht
      obtain ⟨rfl, _⟩ := ht
      revert hm
      simp [escapes]
  | @uni a b c d w x y z v s ha hb hc hd _ ih =>
    generalize ht : 92 :: 117 :: a :: b :: c :: d :: s = t at h'
    cases h' with
    | nil => cases ht
    | plain h1 h2 h3 h =>
      simp only [List.cons.injEq] at ht
      exact absurd ht.1.symm h3
    | esc hm h =>
      simp only [List.cons.injEq, true_and] at ht
      obtain ⟨rfl, _⟩ := ht
      revert hm
      simp [escapes]
    | uni ha' hb' hc' hd' h =>
      simp only [List.cons.injEq, true_and] at ht
      obtain ⟨rfl, rfl, rfl, rfl, rfl⟩ := ht
      rw [ha] at ha'; rw [hb] at hb'; rw [hc] at hc'; rw [hd] at hd'
      simp only [Option.some.injEq] at ha' hb' hc' hd'
      subst ha' hb' hc' hd'
      rw [ih h]

/-- A backslash is not escaped: the two characters `\n` are written as the text of a line feed. -/
theorem json_backslash : ∃ s, render (.str [92, 110]) 0 = .ok s ∧ Text (.str [10]) s ∧ ¬ Text (.str [92, 110]) s := by
  refine ⟨[34, 92, 110, 34], ?_, ?_, ?_⟩
  · rw [render, escape_ok]; rfl
  · exact .str (s := [92, 110]) (.esc (by decide) .nil)
  · intro h
    have h1 := text_str (s := [92, 110]) h
    have h2 : Chars [10] [92, 110] := .esc (by decide) .nil
    have := json_chars_unique h1 h2
    cases this

/-- A string which ends with a backslash is written as no JSON text at all. -/
theorem json_backslash_end : ∃ s, render (.str [92]) 0 = .ok s ∧ ∀ v, ¬ Text v s := by
  refine ⟨[34, 92, 34], ?_, ?_⟩
  · rw [render, escape_ok]; rfl
  · intro v h
    generalize hs : ([34, 92, 34] : List UInt8) = s at h
    cases h with
    | num h =>
      cases h with
      | pos _ h _ => subst hs; have := h 34 (by simp); revert this; decide
      | neg => cases hs
    | str h =>
      simp only [List.cons_append, List.cons.injEq, true_and] at hs
      have := (List.append_inj' (s₁ := [92]) (t₁ := [34]) hs rfl).1
      subst this
      generalize hz : ([92] : List UInt8) = z at h
      cases h with
      | nil => cases hz
      | plain _ _ h => simp only [List.cons.injEq] at hz; exact absurd hz.1.symm h
      | esc => cases hz
      | uni => cases hz
    | arrNil => cases hs
    | arr => cases hs
    | objNil => cases hs
    | obj => cases hs

theorem members_head {l : List (List UInt8 × JV)} {s : List UInt8} (h : Members l s) : ∃ w k v ks r, Ws w ∧ l.head? = some (k, v) ∧ Chars k ks ∧ s = w ++ 34 :: ks ++ 34 :: r := by
  cases h with
  | one h1 h2 h3 h4 h5 h6 => exact ⟨_, _, _, _, _, h1, rfl, h2, by simp only [List.append_assoc, List.cons_append]; rfl⟩
  | more h1 h2 h3 h4 h5 h6 => exact ⟨_, _, _, _, _, h1, rfl, h2, by simp only [List.append_assoc, List.cons_append]; rfl⟩

theorem chars_no_quote {v s : List UInt8} (h : Chars v s) : ∀ r, s ≠ 34 :: r := by
  cases h with
  | nil => intro r h; cases h
  | plain _ h => intro r e; simp only [List.cons.injEq] at e; exact h e.1
  | esc => intro r e; simp at e
  | uni => intro r e; simp at e

/-- Names are not escaped: an object whose name is a quote is not written as a text of itself. -/
theorem json_name (v : JV) (s : List UInt8) (h : render (.obj [([34], v)]) 0 = .ok s) : ¬ Text (.obj [([34], v)]) s := by
  rw [render, renderFields] at h
  rcases hv : render v 1 with e | a
  · rw [hv] at h; cases h
  rw [hv] at h
  simp only [Except.bind, renderFields, List.isEmpty_nil, if_true, Except.ok.injEq, List.append_nil, Nat.zero_add] at h
  intro ht
  generalize hs : s = s' at ht
  cases ht with
  | @obj l m hm =>
    obtain ⟨w, k, v', ks, r, h1, h2, h3, rfl⟩ := members_head hm
    simp only [List.head?_cons, Option.some.injEq, Prod.mk.injEq] at h2
    obtain ⟨rfl, rfl⟩ := h2
    subst hs
    simp only [indent, List.cons_append, List.cons.injEq, List.append_assoc, true_and, List.nil_append] at h
    -- the first byte which is not white space is the quote before the name
    have key : ∀ (a b r r' : List UInt8), Ws a → Ws b → a ++ 34 :: r = b ++ 34 :: r' → r = r' := by
      intro a
      induction a with
      | nil =>
        intro b r r' _ hb e
        cases b with
        | nil => simpa using e
        | cons c b =>
          simp only [List.nil_append, List.cons_append, List.cons.injEq] at e
          have := hb c (by simp)
          rw [← e.1] at this
          exact absurd this (by decide)
      | cons c a ih =>
        intro b r r' ha hb e
        cases b with
        | nil =>
          simp only [List.nil_append, List.cons_append, List.cons.injEq] at e
          have := ha c (by simp)
          rw [e.1] at this
          exact absurd this (by decide)
        | cons c' b =>
          simp only [List.cons_append, List.cons.injEq] at e
          exact ih b r r' (fun x hx => ha x (by simp [hx])) (fun x hx => hb x (by simp [hx])) e.2
    have := key (10 :: List.replicate (4 * 1) 32) w _ _ (ws_nl.append (ws_indent 1)) h1 h
    cases ks with
    | nil => have := (chars_length h3).1; simp at this
    | cons c ks =>
      simp only [List.cons_append, List.cons.injEq] at this
      exact chars_no_quote h3 ks (by rw [this.1])

end Tdc.Json

namespace Tdc.Stat

open Json

/-- no backslash, no control character -/
def Printable (s : List UInt8) : Prop := ∀ c ∈ s, 32 ≤ c ∧ c ≠ 92

mutual
theorem reports_plain {j : JV} {t : List UInt8} {off lo hi : Int} (ht : Printable t) : ∀ (l : List Act), NamesAll Printable l → Reports j t off lo hi l → j.Plain
  | l, hn, h => by
    rw [Reports] at h
    obtain ⟨pk, st, sp, su, _, _, _, _, h1, rfl⟩ := h
    have hs : PlainAll su := subReports_plain l hn h1
    have hl : PlainAll ((logged l).map fun e => JV.obj [(bytes "key", .str e.1), (bytes "value", .str e.2)]) := by
      have := names_logged hn
      revert this
      generalize logged l = ll
      intro this
      induction ll with
      | nil => trivial
      | cons e ll ih =>
        rw [List.map_cons, PlainAll, JV.Plain, PlainFields, PlainFields, PlainFields, JV.Plain, JV.Plain]
        have he := this e (by simp)
        exact ⟨⟨by decide +kernel, he.1, by decide +kernel, he.2, trivial⟩, ih fun e he => this e (by simp [he])⟩
    simp only [JV.Plain, PlainFields]
    exact ⟨by decide +kernel, trivial, by decide +kernel, trivial, by decide +kernel, trivial, by decide +kernel, hl, by decide +kernel, hs,
      by decide +kernel, trivial, by decide +kernel, trivial, by decide +kernel, ht, trivial⟩
theorem subReports_plain {js : List JV} {off lo hi : Int} : ∀ (l : List Act), NamesAll Printable l → SubReports js off lo hi l → PlainAll js
  | [], _, h => by rw [SubReports] at h; rw [h.1]; trivial
  | .phase t o o' body :: l, hn, h => by
    rw [SubReports] at h
    rw [NamesAll, Act.Names] at hn
    obtain ⟨j, js', mid, rfl, h1, h2⟩ := h
    rw [PlainAll]
    exact ⟨reports_plain hn.1.1 body hn.1.2 h1, subReports_plain l hn.2 h2⟩
  | .mem m :: l, hn, h => by rw [SubReports] at h; rw [NamesAll] at hn; exact subReports_plain l hn.2 h
  | .quiet m :: l, hn, h => by rw [SubReports] at h; rw [NamesAll] at hn; exact subReports_plain l hn.2 h
  | .log _ _ _ :: l, hn, h => by rw [SubReports] at h; rw [NamesAll] at hn; exact subReports_plain l hn.2 h
end

/-- What is printed at the end is a JSON text of the report of the program (see `stat_report_partial`). -/
theorem stat_report_text_partial (clock : Nat → Nat) (hc : ∀ a b, a ≤ b → clock a ≤ clock b) (title : List UInt8) (own : List Mem) (body : List Act)
    (ht : Short title ∧ Printable title) (hb : NamesAll Short body) (hp : NamesAll Printable body) :
    ∃ j n s, (report clock (run clock ([], 0) (.begin title own :: eventsAll body))).bind (fun j => render j 0) = .ok s ∧
      Reports j title 0 (clock 0) (clock n) body ∧ Text j s := by
  obtain ⟨j, n, h1, h2⟩ := stat_report_partial clock hc title own body ht.1 hb
  obtain ⟨s, h3, h4⟩ := json_text_partial j 0 (reports_plain ht.2 body hp h2)
  exact ⟨j, n, s, by rw [h1]; exact h3, h2, h4⟩

example : Printable (bytes "root") ∧ NamesAll Printable demo := by
  simp only [NamesAll, demo, Act.Names, Printable]
  decide +kernel

end Tdc.Stat

namespace Tdc.Json

example : JV.Plain (.obj [(bytes "a", .arr [.num (-12), .str (bytes "x \"y\"")]), (bytes "b", .obj [])]) := by
  simp only [JV.Plain, PlainFields, PlainAll]
  decide +kernel

def exampleText : String := "{\n    \"a\": [-12,\"x \\\"y\\\"\"],\n    \"b\": {\n    }\n}"

example : (render (.obj [(bytes "a", .arr [.num (-12), .str (bytes "x \"y\"")]), (bytes "b", .obj [])]) 0).toOption = some (bytes exampleText) := by decide +kernel

end Tdc.Json
