import Verif.Lemmas.AlgoParser3
import Mathlib.Tactic.IntervalCases

/-!
# Property C49: algorithm strings mean what the grammar says

`parse text` is `ast::Parser(text).parse_value()`; the grammar is in `Verif/Spec/AlgoGrammar.lean`.
-/

namespace Tdc
namespace Ast

/-- the bytes of an (ASCII) string literal -/
def bs (s : String) : Bs := s.toList.map fun c => UInt8.ofNat c.toNat

/-- **C49, every text.** The parser ends on every byte string, with a value or with an exception. -/
theorem parse_total (text : Bs) : (∃ v, parse text = .ok v) ∨ parse text = .error .throw := by
  have h := ((ends text.length _).value text [] (Nat.le_refl _)).1
  have h2 : Fine (parse text) := h.bind fun a _ => Fine.ok _
  cases e : parse text with
  | ok v => exact Or.inl ⟨v, rfl⟩
  | error x => rw [h2 x e]; exact Or.inr rfl

/-- **C49, what is derivable is accepted.** Every string derived from the grammar (surrounded by whitespace) parses to the value it denotes:
any mixture of whitespace, quoting styles, bare numbers, keywords, positional arguments, trailing commas and `:` chains. -/
theorem parse_complete (v : Val) (w s : Bs) (hw : AllWs w) (g : GValue false v s) : parse (w ++ s) = .ok v := by
  unfold parse
  have e : skipWs (w ++ s) = s ++ [] := by
    rw [skipWs_append hw, List.append_nil]
    have := (start_value _ _ _ _ (Nat.le_refl _) g []).ws.1
    rw [List.append_nil] at this
    exact skip_cur this
  obtain ⟨f', r, h1, h2, h3⟩ := (compl (w ++ s).length s.length).value false v s g (Nat.le_refl _) (w ++ s) [] (4 * (w ++ s).length + 2) e
    (by unfold Stop; decide) (fun h => by cases h) (by simp <;> omega)
  obtain ⟨r', h4, -⟩ := value_done (n := (w ++ s).length) (f' := f') (v := v) h2 (by decide) (by simp at h3; omega)
  rw [h1, h4]
  rfl

/-- **C49, what is accepted is derivable.** Whenever a text is accepted, some prefix of it is derived from the grammar and denotes the value. -/
theorem parse_sound (text : Bs) (v : Val) (h : parse text = .ok v) :
    ∃ w tok rest b, text = w ++ tok ++ rest ∧ AllWs w ∧ GValue b v tok := by
  unfold parse at h
  obtain ⟨a, ha, h⟩ := bind_ok h
  obtain ⟨w, tok, b, hw, e, g⟩ := (sound text.length _).value text a.1 a.2 ha
  cases h
  exact ⟨w, tok, _, b, e, hw, g⟩

/-- **C49, one meaning.** No string denotes two values. -/
theorem grammar_unambiguous (v v' : Val) (s : Bs) (g : GValue false v s) (g' : GValue false v' s) : v = v' := by
  have h := parse_complete v [] s allWs_nil g
  rw [parse_complete v' [] s allWs_nil g'] at h
  cases h
  rfl

mutual
/-- names and keywords are identifiers (no invocation is called `true` or `false`), strings contain no double quote -/
def Val.Wf : Val → Prop
  | .str x => 34 ∉ x
  | .inv name args => IsIdent name ∧ name ≠ trueB ∧ name ≠ falseB ∧ args.Wf
def Args.Wf : Args → Prop
  | .nil => True
  | .cons kw v rest => (∀ k, kw = some k → IsIdent k) ∧ v.Wf ∧ rest.Wf
end

theorem print_arg {kw : Option Bs} {v : Val} {s : Bs} (hk : ∀ k, kw = some k → IsIdent k) (g : GSingle false v s) :
    GArg kw v (printArg kw s) := by
  cases kw with
  | none => exact GArg.pos false _ _ (GValue.single _ _ _ g)
  | some k =>
    have h32 : AllWs [32] := fun c hc => by simp at hc; exact Or.inl hc
    have := GArg.kw k [32] [32] false v s (hk k rfl) h32 h32 (GValue.single _ _ _ g)
    simpa [printArg] using this

mutual
theorem print_single : ∀ v : Val, v.Wf → GSingle false v v.print
  | .str x, h => by
    rw [Val.Wf] at h
    rw [Val.print]
    exact GSingle.dquote x [] h allWs_nil
  | .inv name .nil, h => by
    rw [Val.Wf] at h
    rw [Val.print]
    have := GSingle.inv0 name [] h.1 h.2.1 h.2.2.1 allWs_nil
    rwa [List.append_nil] at this
  | .inv name (.cons kw v rest), h => by
    rw [Val.Wf, Args.Wf] at h
    rw [Val.print]
    have g1 := print_arg h.2.2.2.1 (print_single v h.2.2.2.2.1)
    have g2 := print_rest rest h.2.2.2.2.2
    have g3 := GArgs.cons [] kw v _ rest _ allWs_nil g1 g2
    have := GSingle.inv name [] _ [] _ h.1 h.2.1 h.2.2.1 allWs_nil g3 allWs_nil
    simpa using this
theorem print_rest : ∀ a : Args, a.Wf → GTail a (a.printRest ++ [41])
  | .nil, _ => by
    rw [Args.printRest]
    exact GTail.close
  | .cons kw v rest, h => by
    rw [Args.Wf] at h
    rw [Args.printRest]
    have h32 : AllWs [32] := fun c hc => by simp at hc; exact Or.inl hc
    have := GTail.more [32] kw v _ rest _ h32 (print_arg h.1 (print_single v h.2.1)) (print_rest rest h.2.2)
    simpa using this
end

/-- **C49, printing.** Every value with proper names whose strings contain no double quote is read back from its printed form
(`Value::to_string`). -/
theorem parse_print_partial (v : Val) (h : v.Wf) : parse v.print = .ok v :=
  parse_complete v [] v.print allWs_nil (GValue.single _ _ _ (print_single v h))

/-- **C49, chains.** `a:b` is `chain(a, b)`, and `:` associates to the left. -/
theorem parse_chain (v1 v2 v3 : Val) (h1 : v1.Wf) (h2 : v2.Wf) (h3 : v3.Wf) :
    parse (v1.print ++ bs ":" ++ v2.print ++ bs ":" ++ v3.print) = parse (mkChain (mkChain v1 v2) v3).print := by
  have e1 : bs ":" = [58] := by decide +kernel
  have g12 := GValue.chain _ _ _ _ _ [] _ (GValue.single _ _ _ (print_single v1 h1)) allWs_nil (print_single v2 h2)
  have g123 := GValue.chain _ _ _ _ _ [] _ g12 allWs_nil (print_single v3 h3)
  have hid : IsIdent chainB := ⟨99, _, rfl, by decide, by decide⟩
  have hw : (mkChain (mkChain v1 v2) v3).Wf := by
    unfold mkChain
    simp only [Val.Wf, Args.Wf]
    simp [h1, h2, h3, hid]
    simp [chainB, trueB, falseB]
  rw [parse_print_partial _ hw, e1]
  have := parse_complete _ [] _ allWs_nil g123
  simpa [mkChain] using this

/-- **C49, trailing text (a deviation).** Whatever follows a complete value and starts with a character that cannot continue it (a closing
parenthesis, a comma, a semicolon …) is silently ignored, for every value and every continuation. -/
theorem parse_trailing_ignored (v : Val) (w s rest : Bs) (hw : AllWs w) (g : GValue false v s)
    (hr : ∃ c t, rest = c :: t ∧ c ∉ bs " \t\n\r(=:.-_" ∧ ¬ Letter c ∧ ¬ Digit c) : parse (w ++ s ++ rest) = .ok v := by
  obtain ⟨c, t, rfl, h1, h2, h3⟩ := hr
  rw [show bs " \t\n\r(=:.-_" = [32, 9, 10, 13, 40, 61, 58, 46, 45, 95] by decide +kernel] at h1
  simp only [List.mem_cons, List.not_mem_nil, or_false, not_or] at h1
  have hstop : Stop (c :: t) := by
    unfold Stop
    rw [cur_c]
    refine ⟨?_, ?_, ?_, h1.2.2.2.2.1, h1.2.2.2.2.2.1⟩
    · cases h : isWs c with
      | false => rfl
      | true =>
        rcases (isWs_iff c).mp h with h | h | h | h
        · exact absurd h h1.1
        · exact absurd h h1.2.1
        · exact absurd h h1.2.2.1
        · exact absurd h h1.2.2.2.1
    · cases h : isIdent c with
      | false => rfl
      | true => exact absurd (ident_iff.mp h) (by simp [h2, h3])
    · cases h : isNum c with
      | false => rfl
      | true =>
        rcases num_iff.mp h with h | h | h
        · exact absurd h h3
        · exact absurd (UInt8.toNat_inj.mp (show c.toNat = (46 : UInt8).toNat from h)) h1.2.2.2.2.2.2.2.1
        · exact absurd (UInt8.toNat_inj.mp (show c.toNat = (45 : UInt8).toNat from h)) h1.2.2.2.2.2.2.2.2.1
  unfold parse
  have e : skipWs (w ++ s ++ c :: t) = s ++ c :: t := by
    rw [List.append_assoc, skipWs_append hw]
    exact skip_cur (start_value _ _ _ _ (Nat.le_refl _) g _).ws.1
  obtain ⟨f', r, h4, h5, h6⟩ := (compl (w ++ s ++ c :: t).length s.length).value false v s g (Nat.le_refl _) (w ++ s ++ c :: t) (c :: t)
    (4 * (w ++ s ++ c :: t).length + 2) e hstop (fun h => by cases h) (by simp; omega)
  obtain ⟨r', h7, -⟩ := value_done (n := (w ++ s ++ c :: t).length) (f' := f') (v := v) h5 (by rw [cur_c]; exact h1.2.2.2.2.2.2.1) (by simp at h6; omega)
  rw [h4, h7]
  rfl

/-- **C49, refuted: a typing error is not noticed.** The text after the second closing parenthesis, an option included, is dropped. -/
theorem parse_garbage_accepted :
    (parse (bs "lz78(coder = ascii)), dict_size = 5)")).map Val.print = .ok (bs "lz78(coder = ascii)") := by decide +kernel

/-- **C49, refuted: printing with a double quote inside.** The parser accepts `f('a"b')`, but the printed value is not a legal string. -/
theorem parse_print_quote_broken : ∃ v, parse (bs "f('a\"b')") = .ok v ∧ parse v.print = .error .throw := by
  refine ⟨.inv (bs "f") (.cons none (.str (bs "a\"b")) .nil), ?_, ?_⟩
  · have hid : IsIdent (bs "f") := ⟨102, [], by decide +kernel, by decide, by decide⟩
    have g := GSingle.inv (bs "f") [] _ [] _ hid (by decide +kernel) (by decide +kernel) allWs_nil
      (GArgs.cons [] none _ _ .nil _ allWs_nil (GArg.pos _ _ _ (GValue.single _ _ _ (GSingle.squote (bs "a\"b") [] (by decide +kernel) allWs_nil))) GTail.close)
      allWs_nil
    have := parse_complete _ [] _ allWs_nil (GValue.single _ _ _ g)
    rw [show bs "f('a\"b')" = [] ++ (bs "f" ++ [] ++ 40 :: ([] ++ (39 :: bs "a\"b" ++ 39 :: []) ++ [41]) ++ []) by decide +kernel]
    exact this
  · have : (match parse (Val.inv (bs "f") (.cons none (.str (bs "a\"b")) .nil)).print with | .error .throw => true | _ => false) = true := by
      decide +kernel
    split at this
    · assumption
    · cases this

/-! ## concrete cases -/

/-- whitespace, both quotes, a bare number, a keyword, a trailing comma and a chain at once -/
example : (parse (bs "  lz78 ( dict_size=100,coder = ascii( ) , 'x y', true, ) : bwt:\tmtf")).map Val.print =
    .ok (bs "chain(chain(lz78(dict_size = \"100\", coder = ascii, \"x y\", \"true\"), bwt), mtf)") := by decide +kernel

/-- whitespace behind a bare number becomes part of its value -/
example : (parse (bs "f(8 )")).map Val.print = .ok (bs "f(\"8 \")") := by decide +kernel

/-- ill-formed texts raise -/
example : (parse (bs "f(a b)")).map Val.print = .error .throw ∧ (parse (bs "f(x=)")).map Val.print = .error .throw ∧
    (parse (bs "f(\"abc)")).map Val.print = .error .throw ∧ (parse []).map Val.print = .error .throw := by decide +kernel

/-- a value that satisfies the hypothesis of `parse_print_partial` -/
example : (Val.inv (bs "lz78") (.cons (some (bs "coder")) (.inv (bs "ascii") .nil) (.cons none (.str (bs "a, (b)")) .nil))).Wf := by
  simp only [Val.Wf, Args.Wf]
  refine ⟨⟨108, bs "z78", by decide +kernel, by decide, by decide +kernel⟩, by decide +kernel, by decide +kernel, ?_,
    ⟨⟨97, bs "scii", by decide +kernel, by decide, by decide +kernel⟩, by decide +kernel, by decide +kernel, trivial⟩, ?_, by decide +kernel, trivial⟩
  · intro k hk
    cases hk
    exact ⟨99, bs "oder", by decide +kernel, by decide, by decide +kernel⟩
  · intro k hk
    cases hk

end Ast
end Tdc
