import Verif.Lemmas.OptionEval2

namespace Tdc
namespace Opt

open Ast

/-! ## calls with positional and keyword arguments -/

/-- the arguments `x₁, …, xₚ, k₁ = y₁, …` -/
def callList (pos : List Val) (kws : List (Bs × Val)) : List (Option Bs × Val) :=
  pos.map (fun v => (none, v)) ++ kws.map (fun e => (some e.1, e.2))

theorem argNames_kws (sig : List DArg) : ∀ (kws : List (Bs × Val)) (i : Nat) (b : Bool),
    argNames sig i b (kws.map fun e => (some e.1, e.2)) =
      if (∀ k ∈ kws, defined sig k.1 = true) then .ok (kws.map (·.1)) else .error .throw
  | [], i, b => by simp [argNames]
  | (k, v) :: t, i, b => by
    rw [List.map_cons, argNames, argNames_kws sig t i false]
    by_cases hd : defined sig k = true
    · by_cases ht : ∀ k ∈ t, defined sig k.1 = true
      · rw [if_pos hd, if_pos ht, if_pos (by simpa [hd] using ht)]
        rfl
      · rw [if_pos hd, if_neg ht, if_neg (by simpa [hd] using ht)]
        rfl
    · rw [if_neg hd, if_neg (by simp [hd])]

theorem argNames_pos (sig : List DArg) : ∀ (pos : List Val) (i : Nat) (rest : List (Option Bs × Val)), i ≤ sig.length →
    argNames sig i true (pos.map (fun v => (none, v)) ++ rest) =
      if i + pos.length ≤ sig.length then
        (argNames sig (i + pos.length) true rest).bind fun r => .ok (((sig.drop i).take pos.length).map (·.name) ++ r)
      else .error .throw
  | [], i, rest, hi => by
    rw [if_pos (by simpa using hi)]
    simp
    cases argNames sig i true rest <;> rfl
  | v :: t, i, rest, hi => by
    rw [List.map_cons, List.cons_append, argNames]
    simp only [if_true]
    by_cases hlt : i < sig.length
    · rw [List.getElem?_eq_getElem hlt]
      simp only
      rw [if_pos (defined_iff.mpr ⟨_, List.getElem_mem hlt, rfl⟩), argNames_pos sig t (i + 1) rest (by omega)]
      by_cases hl : i + 1 + t.length ≤ sig.length
      · rw [if_pos hl, if_pos (by simp; omega), List.drop_eq_getElem_cons hlt]
        rw [show i + (v :: t).length = i + 1 + t.length by simp; omega]
        cases argNames sig (i + 1 + t.length) true rest with
        | error e => rfl
        | ok r =>
          show Except.ok _ = Except.ok _
          rw [List.length_cons, List.take_succ_cons, List.map_cons, List.cons_append]
      · rw [if_neg hl, if_neg (by simp; omega)]
        rfl
    · rw [List.getElem?_eq_none (by omega), if_neg (by simp; omega)]

theorem argNames_call (sig : List DArg) (pos : List Val) (kws : List (Bs × Val)) : argNames sig 0 true (callList pos kws) =
    if pos.length ≤ sig.length ∧ ∀ k ∈ kws, defined sig k.1 = true then .ok ((sig.take pos.length).map (·.name) ++ kws.map (·.1))
    else .error .throw := by
  rw [callList, argNames_pos sig pos 0 _ (by omega), argNames_kws, Nat.zero_add]
  by_cases h1 : pos.length ≤ sig.length
  · by_cases h2 : ∀ k ∈ kws, defined sig k.1 = true
    · rw [if_pos h1, if_pos h2, if_pos ⟨h1, h2⟩]; rfl
    · rw [if_pos h1, if_neg h2, if_neg (fun h => h2 h.2)]; rfl
  · rw [if_neg h1, if_neg (fun h => h1 h.1)]

theorem foldl_last {α : Type} (p : α → Bool) (f : α → Val) : ∀ (l : List α) (s : Option Val),
    l.foldl (fun found e => if p e then some (f e) else found) s =
      (l.foldl (fun found e => if p e then some (f e) else found) none).or s
  | [], s => by simp
  | x :: t, s => by
    rw [List.foldl_cons, List.foldl_cons, foldl_last p f t, foldl_last p f t (if p x then some (f x) else none)]
    by_cases h : p x = true
    · simp only [if_pos h]
      cases t.foldl (fun found e => if p e = true then some (f e) else found) none <;> simp
    · simp only [if_neg h]
      cases t.foldl (fun found e => if p e = true then some (f e) else found) none <;> simp

theorem lastGiven_append {n1 n2 : List Bs} {l1 l2 : List (Option Bs × Val)} (h : n1.length = l1.length) (n : Bs) :
    lastGiven (n1 ++ n2) (l1 ++ l2) n = (lastGiven n2 l2 n).or (lastGiven n1 l1 n) := by
  unfold lastGiven
  rw [List.zip_append h, List.foldl_append]
  have := foldl_last (fun e : Bs × Option Bs × Val => decide (e.1 = n)) (fun e => e.2.2) (n2.zip l2)
  simp only [decide_eq_true_eq] at this
  rw [this]

theorem kw_length (kws : List (Bs × Val)) : (kws.map (·.1)).length = (kws.map fun e => ((some e.1, e.2) : Option Bs × Val)).length := by simp

theorem lastGiven_kws_none {kws : List (Bs × Val)} {n : Bs} :
    lastGiven (kws.map (·.1)) (kws.map fun e => (some e.1, e.2)) n = none ↔ n ∉ kws.map (·.1) := lastGiven_none (kw_length kws)

theorem lastGiven_kws {kws : List (Bs × Val)} (hn : (kws.map (·.1)).Nodup) {n : Bs} {v : Val} :
    lastGiven (kws.map (·.1)) (kws.map fun e => (some e.1, e.2)) n = some v ↔ (n, v) ∈ kws := by
  rw [lastGiven_some (kw_length kws)]
  constructor
  · rintro ⟨j, k, h1, h2, -⟩
    rw [List.getElem?_map] at h1 h2
    cases hj : kws[j]? with
    | none => rw [hj] at h1; cases h1
    | some e =>
      rw [hj] at h1 h2
      simp only [Option.map_some, Option.some.injEq, Prod.mk.injEq] at h1 h2
      have := List.mem_of_getElem? hj
      rw [← h1.2, ← h2]
      exact this
  · intro h
    obtain ⟨j, hj⟩ := List.getElem?_of_mem h
    refine ⟨j, some n, by simp [hj], by simp [hj], ?_⟩
    intro j' hlt hc
    have hlen : j' < (kws.map (·.1)).length := (List.getElem?_eq_some_iff.mp hc).1
    have h2 : (kws.map (·.1))[j]? = some n := by simp [hj]
    have := (List.getElem?_inj hlen hn (j := j)).mp (by rw [hc, h2])
    omega

theorem lastGiven_kws_perm {kws kws' : List (Bs × Val)} (hp : kws.Perm kws') (hn : (kws.map (·.1)).Nodup) (n : Bs) :
    lastGiven (kws.map (·.1)) (kws.map fun e => (some e.1, e.2)) n = lastGiven (kws'.map (·.1)) (kws'.map fun e => (some e.1, e.2)) n := by
  have hn' : (kws'.map (·.1)).Nodup := (hp.map _).nodup_iff.mp hn
  apply Option.ext
  intro v
  rw [lastGiven_kws hn, lastGiven_kws hn', hp.mem_iff]

theorem lastGiven_pos_kw (names : List Bs) (pos : List Val) (h : names.length = pos.length) (n : Bs) :
    lastGiven names (pos.map fun v => (none, v)) n =
      lastGiven ((names.zip pos).map (·.1)) ((names.zip pos).map fun e => (some e.1, e.2)) n := by
  apply Option.ext
  intro v
  rw [lastGiven_some (by simpa using h), lastGiven_some (kw_length _)]
  have e1 : (names.zip pos).map (·.1) = names := List.map_fst_zip (by omega)
  rw [e1]
  constructor
  · rintro ⟨j, k, h1, h2, h3⟩
    refine ⟨j, some n, ?_, h2, h3⟩
    rw [List.getElem?_map] at h1 ⊢
    cases hj : pos[j]? with
    | none => rw [hj] at h1; cases h1
    | some x =>
      rw [hj] at h1
      simp only [Option.map_some, Option.some.injEq, Prod.mk.injEq] at h1
      rw [show (names.zip pos)[j]? = some (n, x) from List.getElem?_zip_eq_some.mpr ⟨h2, hj⟩]
      simp [h1.2]
  · rintro ⟨j, k, h1, h2, h3⟩
    refine ⟨j, none, ?_, h2, h3⟩
    rw [List.getElem?_map] at h1 ⊢
    cases hj : (names.zip pos)[j]? with
    | none => rw [hj] at h1; cases h1
    | some e =>
      rw [hj] at h1
      simp only [Option.map_some, Option.some.injEq, Prod.mk.injEq] at h1
      have := (List.getElem?_zip_eq_some.mp (show (names.zip pos)[j]? = some (e.1, e.2) from hj)).2
      rw [this]
      simp [h1.2]

/-! ## only the chosen values matter -/

theorem evalArgs_congr {ev : Bs → Val → Val → Out OptVal} {pat : Bool} {n1 n2 : List Bs} {l1 l2 : List (Option Bs × Val)} :
    ∀ (sig : List DArg) (fixed) (stat : List (Bs × Pat)) (dyn : List (Bs × OptVal)),
    (∀ a ∈ sig, (pat && !a.isStatic) = false → pickValue (lastGiven n1 l1 a.name) (none) a = pickValue (lastGiven n2 l2 a.name) none a) →
    (fixed ≠ none → ∀ a ∈ sig, lastGiven n1 l1 a.name = lastGiven n2 l2 a.name) →
    evalArgs ev pat n1 l1 sig fixed stat dyn = evalArgs ev pat n2 l2 sig fixed stat dyn
  | [], fixed, stat, dyn, _, _ => by rw [evalArgs, evalArgs]
  | a :: sig, fixed, stat, dyn, h, h' => by
    rw [evalArgs, evalArgs]
    by_cases hp : (pat && !a.isStatic) = true
    · rw [if_pos hp, if_pos hp]
      exact evalArgs_congr sig _ _ _ (fun b hb => h b (List.mem_cons_of_mem _ hb)) (fun hf b hb => h' hf b (List.mem_cons_of_mem _ hb))
    · rw [if_neg hp, if_neg hp]
      have e : pickValue (lastGiven n1 l1 a.name) fixed a = pickValue (lastGiven n2 l2 a.name) fixed a := by
        cases fixed with
        | none => exact h a (List.mem_cons_self ..) (by simpa using hp)
        | some fs => rw [h' (by simp) a (List.mem_cons_self ..)]
      rw [e]
      cases hq : pickValue (lastGiven n2 l2 a.name) fixed a with
      | error x => rfl
      | ok p =>
        show (if isEmpty p.1 = true then _ else _) = (if isEmpty p.1 = true then _ else _)
        by_cases he : isEmpty p.1 = true
        · rw [if_pos he, if_pos he]
        · rw [if_neg he, if_neg he]
          cases ev a.type p.1 p.2.1 with
          | error x => rfl
          | ok r =>
            show (addStatic a r stat).bind _ = (addStatic a r stat).bind _
            cases addStatic a r stat with
            | error x => rfl
            | ok st =>
              refine evalArgs_congr sig _ _ _ (fun b hb => h b (List.mem_cons_of_mem _ hb)) (fun hf b hb => h' ?_ b (List.mem_cons_of_mem _ hb))
              intro hfix
              rw [hfix] at hq
              simp only [pickValue] at hq
              cases hq
              exact hf rfl

/-- two argument lists for which step 1 ends in the same way and which choose the same values -/
theorem eval_congr {types : Types} {pat : Bool} {type name : Bs} {l1 l2 : List (Option Bs × Val)} {fixed : Val}
    (h : ∀ cs d, candidates types type = some cs → lookupAlg cs name = some d →
      (∃ e, argNames d.args 0 true l1 = .error e ∧ argNames d.args 0 true l2 = .error e) ∨
      ∃ n1 n2, argNames d.args 0 true l1 = .ok n1 ∧ argNames d.args 0 true l2 = .ok n2 ∧
        (∀ a ∈ d.args, (pat && !a.isStatic) = false → pickValue (lastGiven n1 l1 a.name) none a = pickValue (lastGiven n2 l2 a.name) none a) ∧
        (isEmpty fixed = false → ∀ a ∈ d.args, lastGiven n1 l1 a.name = lastGiven n2 l2 a.name)) (fuel : Nat) :
    eval types pat fuel type (.inv name (mkArgs l1)) fixed = eval types pat fuel type (.inv name (mkArgs l2)) fixed := by
  cases fuel with
  | zero => rfl
  | succ fuel =>
    rw [eval_succ, eval_succ]
    by_cases ht : type = stringT
    · rw [if_pos ht, if_pos ht]
    · rw [if_neg ht, if_neg ht]
      have ho : openFixed fixed (.inv name (mkArgs l1)) = openFixed fixed (.inv name (mkArgs l2)) := by
        cases fixed <;> rfl
      rw [ho]
      cases hx : openFixed fixed (.inv name (mkArgs l2)) with
      | error x => rfl
      | ok fs =>
        simp only [Except.bind, toList_mkArgs]
        cases hc : candidates types type with
        | none => rfl
        | some cs =>
          simp only
          cases hl : lookupAlg cs name with
          | none => rfl
          | some d =>
            simp only [toList_mkArgs]
            rcases h cs d hc hl with ⟨e, h1, h2⟩ | ⟨n1, n2, h1, h2, h3, h4⟩
            · rw [h1, h2]
            · rw [h1, h2]
              simp only
              rw [evalArgs_congr d.args fs [] [] h3 (fun hf => h4 ?_)]
              cases he : isEmpty fixed with
              | false => rfl
              | true =>
                unfold openFixed at hx
                rw [if_pos he] at hx
                cases hx
                exact absurd rfl hf

/-- calls that differ in harmless ways only -/
theorem eval_call_congr {types : Types} {pat : Bool} {type name : Bs} {pos pos' : List Val} {kws kws' : List (Bs × Val)} {fixed : Val}
    (h : ∀ cs d, candidates types type = some cs → lookupAlg cs name = some d →
      ((pos.length ≤ d.args.length ∧ ∀ k ∈ kws, defined d.args k.1 = true) ↔
        (pos'.length ≤ d.args.length ∧ ∀ k ∈ kws', defined d.args k.1 = true)) ∧
      (pos.length ≤ d.args.length → pos'.length ≤ d.args.length → ∀ n,
        lastGiven ((d.args.take pos.length).map (·.name) ++ kws.map (·.1)) (callList pos kws) n =
        lastGiven ((d.args.take pos'.length).map (·.name) ++ kws'.map (·.1)) (callList pos' kws') n)) (fuel : Nat) :
    eval types pat fuel type (.inv name (mkArgs (callList pos kws))) fixed =
      eval types pat fuel type (.inv name (mkArgs (callList pos' kws'))) fixed := by
  apply eval_congr
  intro cs d hc hl
  obtain ⟨h1, h2⟩ := h cs d hc hl
  rw [argNames_call, argNames_call]
  by_cases hx : pos.length ≤ d.args.length ∧ ∀ k ∈ kws, defined d.args k.1 = true
  · have hx' := h1.mp hx
    rw [if_pos hx, if_pos hx']
    refine Or.inr ⟨_, _, rfl, rfl, fun a _ _ => by rw [h2 hx.1 hx'.1], fun _ a _ => h2 hx.1 hx'.1 _⟩
  · rw [if_neg hx, if_neg (fun h => hx (h1.mpr h))]
    exact Or.inl ⟨_, rfl, rfl⟩

theorem take_len {sig : List DArg} {pos : List Val} (h : pos.length ≤ sig.length) :
    ((sig.take pos.length).map (·.name)).length = (pos.map fun v => ((none, v) : Option Bs × Val)).length := by
  simp [h]

theorem lastGiven_call {sig : List DArg} {pos : List Val} (kws : List (Bs × Val)) (h : pos.length ≤ sig.length) (n : Bs) :
    lastGiven ((sig.take pos.length).map (·.name) ++ kws.map (·.1)) (callList pos kws) n =
      (lastGiven (kws.map (·.1)) (kws.map fun e => (some e.1, e.2)) n).or
        (lastGiven ((sig.take pos.length).map (·.name)) (pos.map fun v => (none, v)) n) := by
  unfold callList
  rw [lastGiven_append (take_len h)]

/-! ## `pattern_eval` -/

theorem evalArgs_pattern {ev ev' : Bs → Val → Val → Out OptVal}
    (hev : ∀ t v n m s f, ev t v (.str []) = .ok (.alg n m s f) → ∃ m', ev' t v (.str []) = .ok (.alg n m' s f))
    {names : List Bs} {l : List (Option Bs × Val)} : ∀ (sig : List DArg) (stat : List (Bs × Pat)) (dyn dyn' : List (Bs × OptVal)) (out : _),
    evalArgs ev false names l sig none stat dyn = .ok out → ∃ dy, evalArgs ev' true names l sig none stat dyn' = .ok (out.1, out.2.1, dy)
  | [], stat, dyn, dyn', out, h => by
    rw [evalArgs] at h ⊢
    cases h
    exact ⟨_, rfl⟩
  | a :: sig, stat, dyn, dyn', out, h => by
    rw [evalArgs] at h ⊢
    simp only [Bool.false_and, Bool.false_eq_true, if_false, Bool.true_and] at h ⊢
    obtain ⟨p, h1, h⟩ := bindOk h
    have hp : p.2.1 = .str [] ∧ p.2.2 = none := by
      simp only [pickValue] at h1
      cases h1
      exact ⟨rfl, rfl⟩
    by_cases he : isEmpty p.1 = true
    · rw [if_pos he] at h; cases h
    · rw [if_neg he] at h
      obtain ⟨r, h2, h⟩ := bindOk h
      obtain ⟨st, h3, h⟩ := bindOk h
      rw [hp.2] at h
      cases hs : a.isStatic with
      | false =>
        simp only [addStatic, hs] at h3
        cases h3
        simp only [Bool.not_false, if_true]
        exact evalArgs_pattern hev sig _ _ _ _ h
      | true =>
        simp only [Bool.not_true, Bool.false_eq_true, if_false]
        rw [h1]
        show ∃ dy, (if isEmpty p.1 = true then _ else _) = _
        rw [if_neg he, hp.1]
        rw [hp.1] at h2
        cases r with
        | str x => simp only [addStatic, hs] at h3; cases h3
        | alg n m s f =>
          obtain ⟨m', h4⟩ := hev _ _ _ _ _ _ h2
          rw [h4]
          have h5 : addStatic a (.alg n m' s f) stat = .ok st := by
            simp only [addStatic, hs] at h3 ⊢
            exact h3
          show ∃ dy, (addStatic a (.alg n m' s f) stat).bind _ = _
          rw [h5, hp.2]
          exact evalArgs_pattern hev sig _ _ _ _ h

theorem eval_pattern {types : Types} : ∀ (fuel : Nat) (t : Bs) (v : Val) (n : Bs) (m) (s : Pat) (f : Flags),
    eval types false fuel t v (.str []) = .ok (.alg n m s f) → ∃ m', eval types true fuel t v (.str []) = .ok (.alg n m' s f)
  | 0, _, _, _, _, _, _, h => by cases h
  | fuel + 1, t, v, n, m, s, f, h => by
    by_cases ht : t = stringT
    · rw [eval_succ, if_pos ht] at h
      cases v <;> cases h
    · obtain ⟨fs, cs, n', args, d, names, out, h1, h2, rfl, h4, h5, h6, h7, h8⟩ := eval_ok h ht
      rw [openFixed_none] at h1
      cases h1
      obtain ⟨dy, h9⟩ := evalArgs_pattern (ev' := eval types true fuel) (fun t v n m s f => eval_pattern fuel t v n m s f) d.args [] [] [] out h6
      refine ⟨dy, ?_⟩
      rw [eval_succ, if_neg ht, openFixed_none]
      show (match candidates types t, Val.inv n' args with | none, _ => _ | some _, .str _ => _ | some cs, .inv n args => _) = _
      rw [h2]
      simp only [h4, h5, Except.bind, h9, if_pos h7]
      cases h8
      rfl

/-! ## fixed static arguments -/

mutual
/-- a value in which everything has a name -/
def allNamed : Val → Bool
  | .str x => x ≠ []
  | .inv n args => decide (n ≠ []) && allNamedArgs args
def allNamedArgs : Args → Bool
  | .nil => true
  | .cons _ v r => allNamed v && allNamedArgs r
end

theorem allNamed_nonempty {v : Val} (h : allNamed v = true) : isEmpty v = false := by
  cases v with
  | str x => simpa [allNamed, isEmpty] using h
  | inv n a => simp [allNamed] at h; simp [isEmpty, h.1]

/-- the pattern arguments described by a list of fixed arguments -/
def listPat (l : List (Option Bs × Val)) : List (Bs × Pat) := l.map fun e => (e.1.getD [], valPat e.2)

theorem ofList_listPat : ∀ a : Args, PArgs.ofList (listPat (toList a)) = argsPat a
  | .nil => rfl
  | .cons k v r => by
    rw [toList, listPat, List.map_cons, PArgs.ofList, argsPat]
    congr 1
    exact ofList_listPat r

theorem valPat_name {v : Val} (h : allNamed v = true) : (valPat v).name ≠ [] := by
  cases v with
  | str x => simpa [valPat, Pat.name, allNamed] using h
  | inv n a => simp [allNamed] at h; simp [valPat, Pat.name, h.1]

theorem evalArgs_fixed {ev : Bs → Val → Val → Out OptVal}
    (hev : ∀ t v fixed r, allNamed fixed = true → ev t v fixed = .ok r → ∀ n m s f, r = .alg n m s f → s = valPat fixed)
    {names : List Bs} {l : List (Option Bs × Val)} : ∀ (sig : List DArg) (fs : List (Option Bs × Val)) (stat : List (Bs × Pat))
    (dyn : List (Bs × OptVal)) (out : _), (∀ e ∈ fs, allNamed e.2 = true) →
    evalArgs ev false names l sig (some fs) stat dyn = .ok out →
    ∃ used rest, fs = used ++ rest ∧ out.1 = some rest ∧ out.2.1 = stat ++ listPat used
  | [], fs, stat, dyn, out, _, h => by
    rw [evalArgs] at h
    cases h
    exact ⟨[], fs, rfl, rfl, by simp [listPat]⟩
  | a :: sig, fs, stat, dyn, out, hf, h => by
    rw [evalArgs] at h
    simp only [Bool.false_and, Bool.false_eq_true, if_false] at h
    obtain ⟨p, h1, h⟩ := bindOk h
    by_cases he : isEmpty p.1 = true
    · rw [if_pos he] at h; cases h
    · rw [if_neg he] at h
      obtain ⟨r, h2, h⟩ := bindOk h
      obtain ⟨st, h3, h⟩ := bindOk h
      cases hs : a.isStatic with
      | false =>
        simp only [pickValue, hs] at h1
        cases h1
        simp only [addStatic, hs] at h3
        cases h3
        exact evalArgs_fixed hev sig fs _ _ _ hf h
      | true =>
        simp only [pickValue, hs, if_true] at h1
        cases fs with
        | nil => cases h1
        | cons e rest =>
          obtain ⟨k, fv⟩ := e
          simp only at h1
          by_cases hk : k.getD [] = a.name
          · rw [if_pos hk] at h1
            cases h1
            have hfv := hf _ (List.mem_cons_self ..)
            cases r with
            | str x => simp only [addStatic, hs] at h3; cases h3
            | alg n m s f =>
              have hsel := hev _ _ _ _ hfv h2 n m s f rfl
              simp only [addStatic, hs, if_true] at h3
              rw [if_neg (by rw [hsel]; exact valPat_name hfv)] at h3
              cases h3
              obtain ⟨used, rest', e1, e2, e3⟩ := evalArgs_fixed hev sig rest _ _ _ (fun e he => hf e (List.mem_cons_of_mem _ he)) h
              refine ⟨(k, fv) :: used, rest', by rw [e1]; rfl, e2, ?_⟩
              rw [e3, hsel]
              simp [listPat, hk]
          · rw [if_neg hk] at h1; cases h1

theorem allNamedArgs_iff : ∀ a : Args, allNamedArgs a = true ↔ ∀ e ∈ toList a, allNamed e.2 = true
  | .nil => by simp [allNamedArgs, toList]
  | .cons k v r => by
    simp only [allNamedArgs, toList, Bool.and_eq_true, allNamedArgs_iff r, List.mem_cons, forall_eq_or_imp]

/-- whatever the options say, the static selection is the fixed one -/
theorem eval_fixed {types : Types} : ∀ (fuel : Nat) (t : Bs) (v fixed : Val) (r : OptVal), allNamed fixed = true →
    eval types false fuel t v fixed = .ok r → ∀ n m s f, r = .alg n m s f → s = valPat fixed
  | 0, _, _, _, _, _, h => by cases h
  | fuel + 1, t, v, fixed, r, hf, h => by
    by_cases ht : t = stringT
    · rw [eval_succ, if_pos ht] at h
      cases v with
      | str x => cases h; intro n m s f he; cases he
      | inv n a => cases h
    · obtain ⟨fs, cs, n', args, d, names, out, h1, h2, rfl, h4, h5, h6, h7, rfl⟩ := eval_ok h ht
      unfold openFixed at h1
      rw [allNamed_nonempty hf] at h1
      simp only [Bool.false_eq_true, if_false] at h1
      cases fixed with
      | str x => cases h1
      | inv fn fargs =>
        simp only at h1
        by_cases hfn : fn = n'
        · rw [if_pos hfn] at h1
          cases h1
          have hall : ∀ e ∈ toList fargs, allNamed e.2 = true := by
            simp only [allNamed, Bool.and_eq_true] at hf
            exact (allNamedArgs_iff fargs).mp hf.2
          obtain ⟨used, rest, e1, e2, e3⟩ := evalArgs_fixed (eval_fixed fuel) d.args _ _ _ _ hall h6
          rw [e2] at h7
          have hr : rest = [] := by
            cases rest with
            | nil => rfl
            | cons x y => cases h7
          rw [hr, List.append_nil] at e1
          intro n m s f he
          cases he
          rw [e3, ← e1, List.nil_append, ofList_listPat, valPat, hfn, (lookupAlg_name h4).1]
        · rw [if_neg hfn] at h1; cases h1

end Opt
end Tdc
