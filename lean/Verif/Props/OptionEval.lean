import Verif.Lemmas.OptionEval6
import Verif.Props.AlgoParser

/-!
# Property C50: what an algorithm string selects

`eval types false fuel type v fixed` is `eval::cl_eval(v, type, types, fixed)`, `.str []` the empty `fixed_static_args`.  The meaning of values is
in `Verif/Spec/OptionSemantics.lean`.  The fuel is the depth of the recursion; `eval_total` shows that it can always be chosen large enough, and
`eval_mono` that it does not matter then.
-/

namespace Tdc
namespace Opt

open Ast

/-- `name(x₁, …, xₚ, k₁ = y₁, …)` -/
def call (name : Bs) (pos : List Val) (kws : List (Bs × Val)) : Val :=
  .inv name (mkArgs (pos.map (fun v => (none, v)) ++ kws.map (fun e => (some e.1, e.2))))

theorem call_eq (name : Bs) (pos : List Val) (kws : List (Bs × Val)) : call name pos kws = .inv name (mkArgs (callList pos kws)) := rfl

/-- **C50, meaning.** Evaluation delivers exactly what the value means. -/
theorem eval_iff_means (types : Types) (ok : TypesOk types) (type : Bs) (v : Val) (r : OptVal) :
    (∃ fuel, eval types false fuel type v (.str []) = .ok r) ↔ Means types type v r :=
  ⟨fun ⟨fuel, h⟩ => eval_means ok fuel type v r h, fun h => means_eval ok h⟩

/-- **C50, one meaning.** -/
theorem meaning_unique (types : Types) (ok : TypesOk types) (type : Bs) (v : Val) (r r' : OptVal) (h : Means types type v r)
    (h' : Means types type v r') : r = r' := means_unique ok h h'

/-- **C50, declarations.** The declarations gathered from registered classes are unambiguous. -/
theorem built_unambiguous (types : Types) (h : Built types) : TypesOk types := (built_ok h).1

/-- **C50, declarations.** Gathering succeeds only if all classes of one type and name declare the same options. -/
theorem gather_consistent (types types' : Types) (hb : Built types) (m : Meta) (hm : m.Ok) (h : m.gather types = .ok types') (c : DAlg)
    (hc : Declared types' m.type m.name c) : c.args = m.opts.args := by
  obtain ⟨g, i⟩ := gather_ok m types types' hm h
  have ok := g.ok (built_ok hb).1
  obtain ⟨t, n, d, f, o⟩ := m
  rw [Meta.In] at i
  obtain ⟨⟨c', h1, h2⟩, -⟩ := i
  obtain ⟨cs, e1, e2⟩ := (declared_iff ok).mp hc
  obtain ⟨cs', e3, e4⟩ := (declared_iff ok).mp h1
  simp only [Meta.type, Meta.name] at e1 e2
  rw [e1] at e3
  cases e3
  rw [e2] at e4
  cases e4
  exact h2

/-- **C50, every value is answered.** With the declarations of registered classes, evaluation ends for every value and every fixed static
arguments: with a result, an exception or a failed `CHECK`. -/
theorem eval_total (types : Types) (hb : Built types) (v fixed : Val) :
    ∃ N, ∀ pattern fuel type, N ≤ fuel → eval types pattern fuel type v fixed ≠ .error .loop := built_noloop hb v fixed

/-- **C50, the fuel does not matter.** -/
theorem eval_fuel (types : Types) (pattern : Bool) (fuel fuel' : Nat) (type : Bs) (v fixed : Val) (r : OptVal) (h : fuel ≤ fuel')
    (he : eval types pattern fuel type v fixed = .ok r) : eval types pattern fuel' type v fixed = .ok r :=
  eval_mono fuel fuel' type v fixed r h he

/-! ## ways to write the same thing -/

/-- **C50, keyword order.** The order of keyword arguments does not matter, not even for errors. -/
theorem keyword_order (types : Types) (pattern : Bool) (fuel : Nat) (type name : Bs) (pos : List Val) (kws kws' : List (Bs × Val))
    (hp : kws.Perm kws') (hn : (kws.map (·.1)).Nodup) (fixed : Val) :
    eval types pattern fuel type (call name pos kws) fixed = eval types pattern fuel type (call name pos kws') fixed := by
  rw [call_eq, call_eq]
  apply eval_call_congr
  intro cs d _ _
  refine ⟨by simp only [hp.mem_iff], ?_⟩
  intro h1 h2 n
  rw [lastGiven_call kws h1, lastGiven_call kws' h1, lastGiven_kws_perm hp hn]

theorem zip_take_left {α β} : ∀ (l : List α) (m : List β), (l.take m.length).zip m = l.zip m
  | [], m => by simp
  | a :: l, [] => by simp
  | a :: l, b :: m => by simp [zip_take_left l m]

/-- **C50, positions.** A positional argument is the same as a keyword argument with the name of the option at that position. -/
theorem positional_is_keyword (types : Types) (ok : TypesOk types) (pattern : Bool) (fuel : Nat) (type name : Bs) (d : DAlg)
    (hd : Declared types type name d) (pos : List Val) (hl : pos.length ≤ d.args.length) (kws : List (Bs × Val)) (fixed : Val) :
    eval types pattern fuel type (call name pos kws) fixed =
      eval types pattern fuel type (call name [] ((d.args.map (·.name)).zip pos ++ kws)) fixed := by
  rw [call_eq, call_eq]
  obtain ⟨cs0, hc0, hl0⟩ := (declared_iff ok).mp hd
  apply eval_call_congr
  intro cs d' hc hl'
  rw [hc0] at hc
  cases hc
  rw [hl0] at hl'
  cases hl'
  constructor
  · simp only [hl, true_and, List.length_nil, Nat.zero_le]
    constructor
    · intro h k hk
      rcases List.mem_append.mp hk with hk | hk
      · have := (List.of_mem_zip (a := k.1) (b := k.2) hk).1
        exact defined_iff.mpr (List.mem_map.mp this)
      · exact h k hk
    · exact fun h k hk => h k (List.mem_append_right _ hk)
  · intro _ h2 n
    rw [lastGiven_call kws hl, lastGiven_call _ h2, List.map_append, List.map_append, lastGiven_append (kw_length _)]
    have hz : (d.args.map (·.name)).zip pos = ((d.args.take pos.length).map (·.name)).zip pos := by
      rw [List.map_take]
      exact (zip_take_left _ _).symm
    rw [hz, ← lastGiven_pos_kw _ _ (by simpa using hl)]
    have : lastGiven ((d.args.take ([] : List Val).length).map (·.name)) (([] : List Val).map fun v => (none, v)) n = none := by
      simp [lastGiven]
    rw [this]
    simp

/-- **C50, defaults.** Writing down the default of an option that is not given changes nothing. -/
theorem default_explicit (types : Types) (ok : TypesOk types) (pattern : Bool) (fuel : Nat) (type name : Bs) (d : DAlg)
    (hd : Declared types type name d) (pos : List Val) (kws : List (Bs × Val)) (i : Nat) (a : DArg) (ha : d.args[i]? = some a)
    (hi : pos.length ≤ i) (hk : ∀ e ∈ kws, e.1 ≠ a.name) (x : Val) (hx : a.dflt = some x) :
    eval types pattern fuel type (call name pos kws) (.str []) =
      eval types pattern fuel type (call name pos (kws ++ [(a.name, x)])) (.str []) := by
  rw [call_eq, call_eq]
  obtain ⟨cs0, hc0, hl0⟩ := (declared_iff ok).mp hd
  obtain ⟨cs, hcs, hdcs, -⟩ := hd
  have hnd := ok.options _ hcs d hdcs
  apply eval_congr
  intro cs d' hc hl'
  rw [hc0] at hc
  cases hc
  rw [hl0] at hl'
  cases hl'
  have hilt := (List.getElem?_eq_some_iff.mp ha).1
  have hdef : defined d.args a.name = true := defined_iff.mpr ⟨a, List.mem_of_getElem? ha, rfl⟩
  rw [argNames_call, argNames_call]
  by_cases hw : pos.length ≤ d.args.length ∧ ∀ k ∈ kws, defined d.args k.1 = true
  · rw [if_pos hw, if_pos ⟨hw.1, fun k hk => by
      rcases List.mem_append.mp hk with hk | hk
      · exact hw.2 k hk
      · rw [List.mem_singleton.mp hk]; exact hdef⟩]
    refine Or.inr ⟨_, _, rfl, rfl, ?_, fun he => by simp [isEmpty] at he⟩
    intro b hb _
    rw [lastGiven_call _ hw.1, lastGiven_call _ hw.1, List.map_append, List.map_append, lastGiven_append (kw_length _)]
    by_cases hba : b.name = a.name
    · have hb' : b = a := name_unique hnd hb (List.mem_of_getElem? ha) hba
      subst hb'
      have h1 : lastGiven (kws.map (·.1)) (kws.map fun e => (some e.1, e.2)) b.name = none := by
        rw [lastGiven_kws_none]
        intro hm
        obtain ⟨e, he, h⟩ := List.mem_map.mp hm
        exact hk e he h
      have h2 : lastGiven ((d.args.take pos.length).map (·.name)) (pos.map fun v => (none, v)) b.name = none := by
        rw [lastGiven_none (take_len hw.1)]
        intro hm
        obtain ⟨j, hj⟩ := List.getElem?_of_mem hm
        rw [List.getElem?_map, List.getElem?_take] at hj
        split at hj
        · next hjp =>
          have h3 : (d.args.map (·.name))[j]? = some b.name := by rw [List.getElem?_map]; exact hj
          have h4 : (d.args.map (·.name))[i]? = some b.name := by rw [List.getElem?_map, ha]; rfl
          have := (List.getElem?_inj (List.getElem?_eq_some_iff.mp h3).1 hnd (j := i)).mp (by rw [h3, h4])
          omega
        · cases hj
      have h3 : lastGiven [b.name] [(some b.name, x)] b.name = some x := by simp [lastGiven]
      rw [h1, h2]
      simp only [List.map_cons, List.map_nil, h3]
      simp [pickValue, hx]
    · have h3 : lastGiven [a.name] [(some a.name, x)] b.name = none := by simp [lastGiven, Ne.symm hba]
      simp only [List.map_cons, List.map_nil, h3]
      simp
  · rw [if_neg hw, if_neg (fun h => hw ⟨h.1, fun k hk => h.2 k (List.mem_append_left _ hk)⟩)]
    exact Or.inl ⟨_, rfl, rfl⟩

/-- **C50, options given twice (a deviation).** The last of several keyword arguments for one option wins; the others are neither evaluated nor
reported. -/
theorem duplicate_last_wins (types : Types) (pattern : Bool) (fuel : Nat) (type name : Bs) (pos : List Val) (kws kws' : List (Bs × Val)) (k : Bs)
    (y : Val) (hk : k ∈ kws'.map (·.1)) (fixed : Val) :
    eval types pattern fuel type (call name pos (kws ++ (k, y) :: kws')) fixed = eval types pattern fuel type (call name pos (kws ++ kws')) fixed := by
  rw [call_eq, call_eq]
  apply eval_call_congr
  intro cs d _ _
  obtain ⟨e, he, hek⟩ := List.mem_map.mp hk
  constructor
  · constructor
    · rintro ⟨h1, h2⟩
      refine ⟨h1, fun x hx => h2 x ?_⟩
      rcases List.mem_append.mp hx with hx | hx
      · exact List.mem_append_left _ hx
      · exact List.mem_append_right _ (List.mem_cons_of_mem _ hx)
    · rintro ⟨h1, h2⟩
      refine ⟨h1, fun x hx => ?_⟩
      rcases List.mem_append.mp hx with hx | hx
      · exact h2 x (List.mem_append_left _ hx)
      · rcases List.mem_cons.mp hx with rfl | hx
        · have := h2 e (List.mem_append_right _ he)
          rwa [hek] at this
        · exact h2 x (List.mem_append_right _ hx)
  · intro h1 _ n
    rw [lastGiven_call _ h1, lastGiven_call _ h1]
    congr 1
    rw [List.map_append, List.map_append, List.map_append, List.map_append, lastGiven_append (kw_length _), lastGiven_append (kw_length _)]
    congr 1
    rw [List.map_cons, List.map_cons]
    have := lastGiven_append (n1 := [k]) (l1 := [(some k, y)]) (n2 := kws'.map (·.1)) (l2 := kws'.map fun e => (some e.1, e.2)) rfl n
    simp only [List.singleton_append] at this
    rw [this]
    by_cases hkn : k = n
    · cases hg : lastGiven (kws'.map (·.1)) (kws'.map fun e => (some e.1, e.2)) n with
      | some v => rfl
      | none =>
        rw [lastGiven_kws_none, ← hkn] at hg
        exact absurd hk hg
    · have h3 : lastGiven [k] [(some k, y)] n = none := by simp [lastGiven, hkn]
      rw [h3]
      simp

/-! ## errors -/

/-- **C50, unknown options raise.** -/
theorem unknown_option_raises (types : Types) (ok : TypesOk types) (pattern : Bool) (fuel : Nat) (type name : Bs) (d : DAlg) (ht : type ≠ stringT)
    (hd : Declared types type name d) (pos : List Val) (kws : List (Bs × Val)) (e : Bs × Val) (he : e ∈ kws) (hu : ∀ a ∈ d.args, a.name ≠ e.1) :
    eval types pattern (fuel + 1) type (call name pos kws) (.str []) = .error .throw := by
  obtain ⟨cs, hc, hl⟩ := (declared_iff ok).mp hd
  rw [call_eq, eval_succ, if_neg ht, openFixed_none]
  show (match candidates types type, Val.inv name (mkArgs (callList pos kws)) with | none, _ => _ | some _, .str _ => _ | some cs, .inv n args => _) = _
  rw [hc]
  simp only [hl, toList_mkArgs]
  rw [argNames_call, if_neg]
  · rfl
  · rintro ⟨-, h⟩
    obtain ⟨a, ha, h2⟩ := defined_iff.mp (h e he)
    exact hu a ha h2

/-- **C50, too many positional arguments raise.** -/
theorem too_many_raises (types : Types) (ok : TypesOk types) (pattern : Bool) (fuel : Nat) (type name : Bs) (d : DAlg) (ht : type ≠ stringT)
    (hd : Declared types type name d) (pos : List Val) (kws : List (Bs × Val)) (hp : d.args.length < pos.length) :
    eval types pattern (fuel + 1) type (call name pos kws) (.str []) = .error .throw := by
  obtain ⟨cs, hc, hl⟩ := (declared_iff ok).mp hd
  rw [call_eq, eval_succ, if_neg ht, openFixed_none]
  show (match candidates types type, Val.inv name (mkArgs (callList pos kws)) with | none, _ => _ | some _, .str _ => _ | some cs, .inv n args => _) = _
  rw [hc]
  simp only [hl, toList_mkArgs]
  rw [argNames_call, if_neg]
  · rfl
  · rintro ⟨h, -⟩
    omega

/-- **C50, unknown algorithms raise.** -/
theorem unknown_algorithm_raises (types : Types) (pattern : Bool) (fuel : Nat) (type name : Bs) (ht : type ≠ stringT)
    (hk : type ∈ types.map (·.1)) (hu : ∀ cs, (type, cs) ∈ types → ∀ c ∈ cs, c.name ≠ name) (args : Args) :
    eval types pattern (fuel + 1) type (.inv name args) (.str []) = .error .throw := by
  rw [eval_succ, if_neg ht, openFixed_none]
  show (match candidates types type, Val.inv name args with | none, _ => _ | some _, .str _ => _ | some cs, .inv n args => _) = _
  cases hc : candidates types type with
  | none =>
    obtain ⟨e, he, h⟩ := List.mem_map.mp hk
    unfold candidates at hc
    rw [Option.map_eq_none_iff, List.find?_eq_none] at hc
    exact absurd h (by simpa using hc e he)
  | some cs =>
    simp only
    cases hl : lookupAlg cs name with
    | none => rfl
    | some d =>
      obtain ⟨h1, h2⟩ := lookupAlg_name hl
      exact absurd h1 (hu cs (candidates_mem hc) d h2)

/-- **C50, every required option must be given.** -/
theorem missing_option_rejected (types : Types) (ok : TypesOk types) (fuel : Nat) (type name : Bs) (d : DAlg)
    (hd : Declared types type name d) (args : List (Option Bs × Val)) (a : DArg) (ha : a ∈ d.args) (hn : a.dflt = none)
    (hg : ∀ j, ¬ IsFor d.args args j a.name) (ht : type ≠ stringT) (r : OptVal) :
    eval types false fuel type (.inv name (mkArgs args)) (.str []) ≠ .ok r := by
  intro h
  have hm := eval_means ok fuel _ _ _ h
  obtain ⟨cs0, hc0, hl0⟩ := (declared_iff ok).mp hd
  generalize hv : Val.inv name (mkArgs args) = v at hm
  cases hm with
  | str x => exact ht rfl
  | alg _ name' args' d' vals rs _ hd' w l1 l2 hch =>
    injection hv with hname hargs
    subst hname
    have hargs' : args' = args := by rw [← toList_mkArgs args, hargs, toList_mkArgs]
    subst hargs'
    obtain ⟨cs1, hc1, hl1⟩ := (declared_iff ok).mp hd'
    rw [hc0] at hc1
    cases hc1
    rw [hl0] at hl1
    cases hl1
    obtain ⟨i, hi⟩ := List.getElem?_of_mem ha
    have hilt := (List.getElem?_eq_some_iff.mp hi).1
    obtain ⟨hc, -⟩ := hch i a vals[i] hi (List.getElem?_eq_getElem (by omega))
    rcases hc with ⟨j, k, -, h2, -⟩ | ⟨-, h2⟩
    · exact hg j h2
    · rw [hn] at h2; cases h2

/-! ## results -/

/-- **C50, options are there.** In every evaluated algorithm each declared option can be read, and its value is the meaning of the value chosen
for it. -/
theorem options_available (types : Types) (ok : TypesOk types) (fuel : Nat) (type name : Bs) (args : List (Option Bs × Val)) (r : OptVal)
    (ht : type ≠ stringT) (h : eval types false fuel type (.inv name (mkArgs args)) (.str []) = .ok r) (d : DAlg)
    (hd : Declared types type name d) (a : DArg) (ha : a ∈ d.args) :
    ∃ v x, Chosen d.args args a v ∧ Means types a.type v x ∧ envOption r a.name = .ok x := by
  have hm := eval_means ok fuel _ _ _ h
  obtain ⟨cs0, hc0, hl0⟩ := (declared_iff ok).mp hd
  generalize hv : Val.inv name (mkArgs args) = v at hm
  cases hm with
  | str x => exact absurd rfl ht
  | alg _ name' args' d' vals rs _ hd' w l1 l2 hch hmean =>
    injection hv with hname hargs
    subst hname
    have hargs' : args' = args := by rw [← toList_mkArgs args, hargs, toList_mkArgs]
    subst hargs'
    obtain ⟨cs1, hc1, hl1⟩ := (declared_iff ok).mp hd'
    rw [hc0] at hc1
    cases hc1
    rw [hl0] at hl1
    cases hl1
    have hnd := ok.options _ (candidates_mem hc0) d (lookupAlg_name hl0).2
    obtain ⟨i, hi⟩ := List.getElem?_of_mem ha
    have hilt := (List.getElem?_eq_some_iff.mp hi).1
    have e1 : vals[i]? = some vals[i] := List.getElem?_eq_getElem (by omega)
    have e2 : rs[i]? = some rs[i] := List.getElem?_eq_getElem (by omega)
    refine ⟨vals[i], rs[i], (hch i a _ hi e1).1, hmean i a _ _ hi e1 e2, ?_⟩
    unfold envOption
    simp only
    cases hf : ((d.args.map (·.name)).zip rs).find? (fun e => e.1 = a.name) with
    | none =>
      rw [List.find?_eq_none] at hf
      have hmem : (a.name, rs[i]) ∈ (d.args.map (·.name)).zip rs :=
        List.mem_of_getElem? (List.getElem?_zip_eq_some.mpr ⟨by rw [List.getElem?_map, hi]; rfl, e2⟩)
      have := hf _ hmem
      simp at this
    | some e =>
      obtain ⟨j, hj⟩ := List.getElem?_of_mem (List.mem_of_find?_eq_some hf)
      have hen := List.find?_some hf
      simp only [decide_eq_true_eq] at hen
      obtain ⟨g1, g2⟩ := List.getElem?_zip_eq_some.mp (show ((d.args.map (·.name)).zip rs)[j]? = some (e.1, e.2) from hj)
      have g3 : (d.args.map (·.name))[i]? = some a.name := by rw [List.getElem?_map, hi]; rfl
      have hij := (List.getElem?_inj (List.getElem?_eq_some_iff.mp g3).1 hnd (j := j)).mp (by rw [g3, g1, hen])
      subst hij
      rw [e2, Option.some.injEq] at g2
      simp only
      rw [g2]

/-- **C50, static selection.** What `pattern_eval` finds is the static selection of the complete evaluation. -/
theorem pattern_is_selection (types : Types) (fuel : Nat) (type : Bs) (v : Val) (n : Bs) (m : List (Bs × OptVal)) (s : Pat) (f : Flags)
    (h : eval types false fuel type v (.str []) = .ok (.alg n m s f)) : patternEval types fuel type v = .ok s := by
  obtain ⟨m', h'⟩ := eval_pattern fuel type v n m s f h
  rw [patternEval, h']
  rfl

/-- **C50, dynamic options do not select.** Adding a dynamic option does not change the pattern. -/
theorem dynamic_does_not_select (types : Types) (ok : TypesOk types) (fuel : Nat) (type name : Bs) (d : DAlg) (hd : Declared types type name d)
    (pos : List Val) (kws : List (Bs × Val)) (a : DArg) (ha : a ∈ d.args) (hs : a.isStatic = false) (x : Val) :
    patternEval types fuel type (call name pos (kws ++ [(a.name, x)])) = patternEval types fuel type (call name pos kws) := by
  rw [patternEval, patternEval, call_eq, call_eq]
  congr 1
  obtain ⟨cs0, hc0, hl0⟩ := (declared_iff ok).mp hd
  obtain ⟨cs, hcs, hdcs, -⟩ := hd
  have hnd := ok.options _ hcs d hdcs
  apply eval_congr
  intro cs d' hc hl'
  rw [hc0] at hc
  cases hc
  rw [hl0] at hl'
  cases hl'
  have hdef : defined d.args a.name = true := defined_iff.mpr ⟨a, ha, rfl⟩
  rw [argNames_call, argNames_call]
  by_cases hw : pos.length ≤ d.args.length ∧ ∀ k ∈ kws, defined d.args k.1 = true
  · rw [if_pos hw, if_pos ⟨hw.1, fun k hk => by
      rcases List.mem_append.mp hk with hk | hk
      · exact hw.2 k hk
      · rw [List.mem_singleton.mp hk]; exact hdef⟩]
    refine Or.inr ⟨_, _, rfl, rfl, ?_, fun he => by simp [isEmpty] at he⟩
    intro b hb hbs
    have hba : b.name ≠ a.name := by
      intro h
      rw [name_unique hnd hb ha h, hs] at hbs
      cases hbs
    rw [lastGiven_call _ hw.1, lastGiven_call _ hw.1, List.map_append, List.map_append, lastGiven_append (kw_length _)]
    have h3 : lastGiven [a.name] [(some a.name, x)] b.name = none := by simp [lastGiven, Ne.symm hba]
    simp only [List.map_cons, List.map_nil, h3]
    simp
  · rw [if_neg hw, if_neg (fun h => hw ⟨h.1, fun k hk => h.2 k (List.mem_append_left _ hk)⟩)]
    exact Or.inl ⟨_, rfl, rfl⟩

/-! ## the registry -/

theorem findReg_mem {κ : Type} : ∀ {l : List (Pat × κ)} {p : Pat} {c : κ}, findReg l p = some c → (p, c) ∈ l
  | (q, c') :: t, p, c, h => by
    rw [findReg] at h
    split at h
    · next hq => cases h; rw [hq]; exact List.mem_cons_self ..
    · exact List.mem_cons_of_mem _ (findReg_mem h)

theorem findReg_of_mem {κ : Type} : ∀ {l : List (Pat × κ)} {p : Pat} {c : κ}, (l.map (·.1)).Nodup → (p, c) ∈ l → findReg l p = some c
  | (q, c') :: t, p, c, hn, h => by
    rw [List.map_cons, List.nodup_cons] at hn
    rw [findReg]
    rcases List.mem_cons.mp h with h | h
    · cases h; rw [if_pos rfl]
    · rw [if_neg]
      · exact findReg_of_mem hn.2 h
      · rintro rfl
        exact hn.1 (List.mem_map_of_mem (f := (·.1)) h)

theorem findReg_none {κ : Type} : ∀ {l : List (Pat × κ)} {p : Pat}, findReg l p = none → p ∉ l.map (·.1)
  | [], p, _ => by simp
  | (q, c) :: t, p, h => by
    rw [findReg] at h
    split at h
    · cases h
    · next hq =>
      rw [List.map_cons, List.mem_cons]
      rintro (rfl | hm)
      · exact hq rfl
      · exact findReg_none h hm

theorem registered_pattern {types : Types} (ok : TypesOk types) {m : Meta} (hm : m.Ok) (hin : m.In types) {fuel : Nat} {p : Pat}
    (h : patternEval types fuel m.type m.staticArgs = .ok p) : p = valPat m.staticArgs := by
  obtain ⟨f', ms, fl, h'⟩ := register_eval ok m hm hin
  rw [patternEval] at h
  obtain ⟨r, h1, h2⟩ := bindOk h
  have e1 := eval_mono fuel (max fuel f') _ _ _ _ (Nat.le_max_left ..) h1
  rw [eval_mono f' (max fuel f') _ _ _ _ (Nat.le_max_right ..) h'] at e1
  cases e1
  cases h2
  rfl

theorem builtReg_inv {κ : Type} {root : Bs} {ms : List (Meta × κ)} {reg : Registry κ} (h : BuiltReg root ms reg) :
    Built reg.types ∧ reg.root = root ∧ reg.registered = ms.map (fun e => (valPat e.1.staticArgs, e.2)) ∧
      (reg.registered.map (·.1)).Nodup ∧ ∀ e ∈ ms, e.1.Ok ∧ e.1.type = root ∧ e.1.In reg.types := by
  induction h with
  | empty => exact ⟨.empty, rfl, rfl, by simp, fun e he => by cases he⟩
  | register m c fuel ms reg reg' _ hm ht hr ih =>
    obtain ⟨h1, h2, h3, h4, h5⟩ := ih
    rw [Opt.register] at hr
    obtain ⟨types, hg, hr⟩ := bindOk hr
    obtain ⟨p, hp, hr⟩ := bindOk hr
    obtain ⟨g, gi⟩ := gather_ok m reg.types types hm hg
    have hb : Built types := .gather m _ _ h1 hm hg
    have hpe : p = valPat m.staticArgs := by
      rw [h2, ← ht] at hp
      exact registered_pattern (built_ok hb).1 hm gi hp
    cases hf : findReg reg.registered p with
    | some x => rw [hf] at hr; simp at hr
    | none =>
      rw [hf] at hr
      simp only [Option.isSome_none, Bool.false_eq_true, if_false] at hr
      cases hr
      refine ⟨hb, h2, by simp only [List.map_cons, hpe, h3], ?_, ?_⟩
      · simp only [List.map_cons, List.nodup_cons]
        exact ⟨findReg_none hf, h4⟩
      · intro e he
        rcases List.mem_cons.mp he with rfl | he
        · exact ⟨hm, ht, gi⟩
        · obtain ⟨a, b, c'⟩ := h5 e he
          exact ⟨a, b, Meta.In.mono g.mono _ c'⟩

/-- **C50, selecting a class.** A registry instantiates, for an algorithm string, the class whose template arguments are the static selection of
the string's meaning, and hands it the evaluated options; it fails if there is no such class or if the string has no meaning. -/
theorem select_iff {κ : Type} (root : Bs) (ms : List (Meta × κ)) (reg : Registry κ) (h : BuiltReg root ms reg) (text : Bs) (c : κ) (a : OptVal) :
    (∃ fuel, select fuel reg text = .ok (c, a)) ↔
      ∃ v m n o f, parse text = .ok v ∧ Means reg.types root v a ∧ (m, c) ∈ ms ∧ a = .alg n o (valPat m.staticArgs) f := by
  obtain ⟨h1, h2, h3, h4, h5⟩ := builtReg_inv h
  have ok := (built_ok h1).1
  constructor
  · rintro ⟨fuel, hs⟩
    rw [select] at hs
    obtain ⟨a', ha', hs⟩ := bindOk hs
    rw [parseId] at ha'
    cases hp : parse text with
    | error e => rw [hp] at ha'; cases ha'
    | ok v =>
      rw [hp] at ha'
      simp only at ha'
      obtain ⟨r, hr, ha'⟩ := bindOk ha'
      have hm := eval_means ok fuel _ _ _ hr
      cases r with
      | str x => cases ha'
      | alg n o s f =>
        cases ha'
        rw [selectAlg] at hs
        simp only [selection, Except.bind] at hs
        cases hf : findReg reg.registered s with
        | none => rw [hf] at hs; cases hs
        | some c' =>
          rw [hf] at hs
          cases hs
          have := findReg_mem hf
          rw [h3] at this
          obtain ⟨e, he, hee⟩ := List.mem_map.mp this
          simp only [Prod.mk.injEq] at hee
          refine ⟨v, e.1, n, o, f, rfl, by rw [← h2]; exact hm, ?_, ?_⟩
          · rw [← hee.2]; exact he
          · rw [hee.1]
  · rintro ⟨v, m, n, o, f, hp, hm, hmem, rfl⟩
    obtain ⟨fuel, hf⟩ := means_eval ok hm
    refine ⟨fuel, ?_⟩
    rw [select, parseId, hp]
    simp only [clEval]
    rw [h2, hf]
    simp only [Except.bind, asAlgorithm, selectAlg, selection]
    rw [findReg_of_mem (c := c) h4 (by rw [h3]; exact List.mem_map.mpr ⟨(m, c), hmem, rfl⟩)]

/-- **C50, registering.** If the declarations agree and no class with the same template arguments is there, registering a class succeeds. -/
theorem register_succeeds {κ : Type} (root : Bs) (ms : List (Meta × κ)) (reg : Registry κ) (h : BuiltReg root ms reg) (m : Meta) (c : κ) (hm : m.Ok)
    (ht : m.type = root) (types : Types) (hg : m.gather reg.types = .ok types)
    (hnew : ∀ e ∈ ms, valPat e.1.staticArgs ≠ valPat m.staticArgs) : ∃ fuel reg', register fuel reg m c = .ok reg' := by
  obtain ⟨h1, h2, h3, h4, h5⟩ := builtReg_inv h
  obtain ⟨g, gi⟩ := gather_ok m reg.types types hm hg
  obtain ⟨f', ms', fl, h'⟩ := register_eval (g.ok (built_ok h1).1) m hm gi
  refine ⟨f', ⟨types, (valPat m.staticArgs, c) :: reg.registered, reg.root⟩, ?_⟩
  rw [register, hg]
  simp only [Except.bind, patternEval]
  rw [h2, ← ht, h']
  simp only [selection]
  cases hf : findReg reg.registered (valPat m.staticArgs) with
  | none => simp
  | some x =>
    have := findReg_mem hf
    rw [h3] at this
    obtain ⟨e, he, hee⟩ := List.mem_map.mp this
    simp only [Prod.mk.injEq] at hee
    exact absurd hee.1 (hnew e he)

/-! ## building an instance of a class -/

/-- **C50, `create_algo<T>(options)`.** Whatever the options are: if an environment for the class is delivered, its static selection is that of
the class. -/
theorem builder_selection (fuel : Nat) (types : Types) (m : Meta) (hm : m.Ok) (options : Bs) (r : OptVal)
    (h : builderEnv fuel types m options = .ok r) : ∃ n o f, r = .alg n o (valPat m.staticArgs) f := by
  rw [builderEnv] at h
  obtain ⟨ty, -, h⟩ := bindOk h
  cases hp : parse (m.name ++ 40 :: options ++ [41]) with
  | error e => rw [hp] at h; cases h
  | ok v =>
    rw [hp] at h
    simp only at h
    obtain ⟨x, hx, h⟩ := bindOk h
    cases x with
    | str s => cases h
    | alg n o s f =>
      cases h
      have := eval_fixed fuel _ _ _ _ (Meta.Ok.named m hm) hx n o s f rfl
      exact ⟨n, o, f, by rw [this]⟩

/-- **C50, `create_algo<T>(options)` and the registry agree.** If the options give only dynamic options by keyword, the environment is the
evaluation of the call in which the template arguments of the class are written down, as the registry evaluates it. -/
theorem builder_like_registry (fuel : Nat) (types ty : Types) (hb : Built types) (m : Meta) (hm : m.Ok) (hg : m.gather types = .ok ty) (options : Bs)
    (kws : List (Bs × Val)) (hp : parse (m.name ++ 40 :: options ++ [41]) = .ok (call m.name [] kws))
    (hk : ∀ e ∈ kws, ∃ a ∈ m.opts.args, a.name = e.1 ∧ a.isStatic = false) (r : OptVal) (h : builderEnv fuel types m options = .ok r) :
    Means ty m.type (.inv m.name (mkArgs (toList m.opts.staticArgs ++ kws.map fun e => (some e.1, e.2)))) r := by
  obtain ⟨g, gi⟩ := gather_ok m types ty hm hg
  have ok := g.ok (built_ok hb).1
  rw [builderEnv, hg] at h
  simp only [Except.bind, hp] at h
  rw [clEval, call_eq] at h
  cases hx : eval ty false fuel m.type (.inv m.name (mkArgs (callList [] kws))) m.staticArgs with
  | error e => rw [hx] at h; cases h
  | ok x =>
    rw [hx] at h
    cases x with
    | str s => cases h
    | alg n o s f =>
      cases h
      exact eval_means ok fuel _ _ _ (eval_unfix ok hm gi hk hx)

/-! ## numbers and truth values -/

theorem decimal_digits {s : Bs} {n : Nat} (h : Decimal s n) : digitsVal s = n ∧ s ≠ [] ∧ ∀ c ∈ s, Digit c := by
  induction h with
  | one d hd => exact ⟨by simp [digitsVal], by simp, by simpa using hd⟩
  | more s n d _ hd ih =>
    refine ⟨?_, by simp, ?_⟩
    · unfold digitsVal at ih ⊢
      rw [List.foldl_append, ih.1]
      rfl
    · intro c hc
      rcases List.mem_append.mp hc with hc | hc
      · exact ih.2.2 c hc
      · rw [List.mem_singleton.mp hc]; exact hd

theorem isDigit_iff (c : UInt8) : isDigit c = true ↔ Digit c := by
  simp only [isDigit, Digit, Bool.and_eq_true, decide_eq_true_eq, UInt8.le_iff_toNat_le]
  exact Iff.rfl

/-- **C50, numbers (proved part).** A decimal number below 2^64, perhaps followed by something that does not start with a digit (the blanks a
bare number carries with it), is read as its value. -/
theorem integer_partial (s rest : Bs) (n : Nat) (h : Decimal s n) (hn : n < 2 ^ 64) (hr : ∀ c t, rest = c :: t → ¬ Digit c) :
    asInteger (s ++ rest) = n := by
  obtain ⟨h1, h2, h3⟩ := decimal_digits h
  have htw : (s ++ rest).takeWhile isDigit = s := by
    rw [List.takeWhile_append_of_pos (fun c hc => (isDigit_iff c).mpr (h3 c hc))]
    cases rest with
    | nil => simp
    | cons c t =>
      rw [List.takeWhile_cons_of_neg, List.append_nil]
      rw [isDigit_iff]
      exact hr c t rfl
  cases s with
  | nil => exact absurd rfl h2
  | cons c t =>
    have hc := h3 c (List.mem_cons_self ..)
    have hsp : isSpace c = false := by
      obtain ⟨ha, hb⟩ := hc
      simp only [isSpace, Bool.or_eq_false_iff, Bool.and_eq_false_iff, decide_eq_false_iff_not, UInt8.le_iff_toNat_le]
      refine ⟨?_, Or.inr ?_⟩
      · rintro rfl; exact absurd ha (by decide)
      · show ¬ c.toNat ≤ 13; omega
    unfold asInteger
    rw [List.cons_append, List.dropWhile_cons, hsp]
    simp only [Bool.false_eq_true, if_false]
    have hne : c ≠ 45 ∧ c ≠ 43 := by
      obtain ⟨ha, hb⟩ := hc
      constructor <;> (rintro rfl; exact absurd ha (by decide))
    rw [if_neg hne.1, if_neg hne.2]
    unfold lexDigits
    rw [List.cons_append] at htw
    rw [htw, h1, if_pos hn]
    simp

/-- **C50, refuted: malformed numbers are not rejected.** `"abc"` and `""` are 0, `"12abc"` is 12, `"-1"` is 2^64 - 1, and what is too large is
2^64 - 1: no error is raised. -/
theorem malformed_integers : asInteger (bs "abc") = 0 ∧ asInteger (bs "12abc") = 12 ∧ asInteger (bs "-1") = 2 ^ 64 - 1 ∧
    asInteger (bs "99999999999999999999") = 2 ^ 64 - 1 := by decide +kernel

/-- **C50, truth values.** Only `true` and `false` are accepted. -/
theorem bool_iff (s : Bs) (b : Bool) : asBool s = .ok b ↔ s = (if b then bs "true" else bs "false") := by
  have e1 : trueB = bs "true" := by decide +kernel
  have e2 : falseB = bs "false" := by decide +kernel
  unfold asBool
  rw [e1, e2]
  have hne : bs "true" ≠ bs "false" := by decide +kernel
  cases b with
  | true =>
    by_cases h : s = bs "true"
    · simp [h]
    · rw [if_neg h]
      by_cases h2 : s = bs "false"
      · simp [h2, Ne.symm hne]
      · simp [h, h2]
  | false =>
    by_cases h : s = bs "true"
    · simp [h, hne]
    · rw [if_neg h]
      by_cases h2 : s = bs "false"
      · simp [h2]
      · simp [h2]

/-! ## a small registry -/

/-- `ascii`, a coder without options -/
def asciiMeta : Meta := .mk (bs "coder") (bs "ascii") [] {} .nil
/-- `sle`, a coder with an option -/
def sleMeta : Meta := .mk (bs "coder") (bs "sle") [] {} (.dynD (bs "kmer") (bs "3") .nil)
/-- `lz(coder, threshold = "2", tag)` instantiated with a coder; the default of `coder` is `sle` -/
def lzMeta (coder : Meta) : Meta :=
  .mk (bs "compressor") (bs "lz") [] { escape := [0], nullTerminate := true } (.templD (bs "coder") coder sleMeta (.dynD (bs "threshold") (bs "2") .nil))

/-- the declarations of both instances -/
def sampleTypes : Types :=
  match ((lzMeta asciiMeta).gather []).bind fun t => (lzMeta sleMeta).gather t with
  | .ok t => t
  | .error _ => []

/-- the registry with both instances -/
def sampleReg : Out (Registry Nat) :=
  (register 5 (⟨[], [], bs "compressor"⟩ : Registry Nat) (lzMeta asciiMeta) 1).bind fun r => register 5 r (lzMeta sleMeta) 2

/-- the class that is instantiated, and one of its options -/
def showSel (text : String) (opt : String) : Out (Nat × Bs) :=
  sampleReg.bind fun r => (select 9 r (bs text)).bind fun s => (envOption s.2 (bs opt)).bind fun v =>
    match v with
    | .str x => .ok (s.1, x)
    | .alg n _ _ _ => .ok (s.1, n)

theorem sampleMeta_ok : asciiMeta.Ok ∧ sleMeta.Ok ∧ (lzMeta asciiMeta).Ok ∧ (lzMeta sleMeta).Ok := by
  have h1 : asciiMeta.Ok := by
    unfold asciiMeta
    simp only [Meta.Ok, Opts.Ok, Opts.names]
    decide +kernel
  have h2 : sleMeta.Ok := by
    unfold sleMeta
    simp only [Meta.Ok, Opts.Ok, Opts.names]
    decide +kernel
  refine ⟨h1, h2, ?_, ?_⟩
  · unfold lzMeta
    simp only [Meta.Ok, Opts.Ok, Opts.names, h1, h2]
    decide +kernel
  · unfold lzMeta
    simp only [Meta.Ok, Opts.Ok, Opts.names, h2]
    decide +kernel

/-- keyword, positional and default spelling; nested options; a deviation -/
example : showSel "lz(ascii, 7)" "threshold" = .ok (1, bs "7") ∧ showSel "lz(threshold = 7, coder = ascii)" "threshold" = .ok (1, bs "7") ∧
    showSel "lz" "threshold" = .ok (2, bs "2") ∧ showSel "lz(coder = sle(kmer = 5))" "coder" = .ok (2, bs "sle") ∧
    showSel "lz(ascii, coder = sle)" "coder" = .ok (2, bs "sle") := by decide +kernel

/-- errors: an unknown option raises, a positional argument behind a keyword aborts, an empty string counts as missing -/
example : showSel "lz(size = 7)" "coder" = .error .throw ∧ showSel "lz(coder = ascii, 7)" "coder" = .error .abort ∧
    showSel "lz(ascii, \"\")" "coder" = .error .throw ∧ showSel "lz(\"ascii\")" "coder" = .error .abort := by decide +kernel

/-- **C50, refuted: an empty string is a value.** An option that is explicitly set to the empty string is rejected as missing, although the option
is a string with a default. -/
theorem empty_string_rejected : showSel "lz(threshold = \"\")" "threshold" = .error .throw ∧
    showSel "lz(threshold = \" \")" "threshold" = .ok (2, bs " ") := by decide +kernel

/-- the sample registry satisfies the hypothesis of `select_iff` -/
example : ∃ reg : Registry Nat, BuiltReg (bs "compressor") [(lzMeta sleMeta, 2), (lzMeta asciiMeta, 1)] reg := by
  obtain ⟨-, -, h3, h4⟩ := sampleMeta_ok
  have hty1 : ((lzMeta asciiMeta).gather []).toOption.isSome = true := by decide +kernel
  cases hg1 : (lzMeta asciiMeta).gather [] with
  | error e => rw [hg1] at hty1; cases hty1
  | ok t1 =>
    obtain ⟨f1, r1, e1⟩ := register_succeeds (bs "compressor") [] (⟨[], [], bs "compressor"⟩ : Registry Nat) .empty (lzMeta asciiMeta) 1 h3 rfl t1 hg1
      (fun e he => by cases he)
    have b1 := BuiltReg.register _ _ f1 _ _ _ BuiltReg.empty h3 rfl e1
    have ht1 : r1.types = t1 := by
      rw [register, hg1] at e1
      simp only [Except.bind] at e1
      obtain ⟨p, -, e1⟩ := bindOk (x := patternEval t1 f1 (bs "compressor") (lzMeta asciiMeta).staticArgs) e1
      split at e1
      · cases e1
      · cases e1; rfl
    have hty2 : (((lzMeta asciiMeta).gather []).bind fun t => (lzMeta sleMeta).gather t).toOption.isSome = true := by decide +kernel
    rw [hg1] at hty2
    simp only [Except.bind] at hty2
    cases hg2 : (lzMeta sleMeta).gather t1 with
    | error e => rw [hg2] at hty2; cases hty2
    | ok t2 =>
      obtain ⟨f2, r2, e2⟩ := register_succeeds _ _ r1 b1 (lzMeta sleMeta) 2 h4 rfl t2 (by rw [ht1]; exact hg2) (fun e he => by
        rw [List.mem_singleton.mp he]
        decide +kernel)
      exact ⟨r2, BuiltReg.register _ _ f2 _ _ _ b1 h4 rfl e2⟩

end Opt
end Tdc
