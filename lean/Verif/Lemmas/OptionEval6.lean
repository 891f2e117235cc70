import Verif.Lemmas.OptionEval5

namespace Tdc
namespace Opt

open Ast

/-! ## fixed static arguments are the same as writing them down -/

theorem evalArgs_unfix {ev : Bs → Val → Val → Out OptVal} {n1 n2 : List Bs} {l1 l2 : List (Option Bs × Val)} :
    ∀ (sig : List DArg) (fs : List (Option Bs × Val)) (stat : List (Bs × Pat)) (dyn : List (Bs × OptVal)) (out : _),
    (∀ e ∈ fs, (lastGiven n1 l1 (e.1.getD []) = none ∨ lastGiven n1 l1 (e.1.getD []) = some e.2) ∧ lastGiven n2 l2 (e.1.getD []) = some e.2) →
    (∀ e ∈ fs, ∀ t r, ev t e.2 e.2 = .ok r → ev t e.2 (.str []) = .ok r) →
    (∀ a ∈ sig, a.isStatic = false → lastGiven n1 l1 a.name = lastGiven n2 l2 a.name) →
    evalArgs ev false n1 l1 sig (some fs) stat dyn = .ok out → evalArgs ev false n2 l2 sig none stat dyn = .ok (none, out.2)
  | [], fs, stat, dyn, out, _, _, _, h => by
    rw [evalArgs] at h ⊢
    cases h
    rfl
  | a :: sig, fs, stat, dyn, out, hg, hev, hd, h => by
    rw [evalArgs] at h ⊢
    simp only [Bool.false_and, Bool.false_eq_true, if_false] at h ⊢
    obtain ⟨p, h1, h⟩ := bindOk h
    by_cases he : isEmpty p.1 = true
    · rw [if_pos he] at h; cases h
    · rw [if_neg he] at h
      obtain ⟨r, h2, h⟩ := bindOk h
      obtain ⟨st, h3, h⟩ := bindOk h
      simp only [pickValue, Except.bind]
      cases hs : a.isStatic with
      | false =>
        simp only [pickValue, hs] at h1
        cases h1
        rw [← hd a (List.mem_cons_self ..) hs]
        simp only at he h2 h
        rw [if_neg he, h2]
        simp only [h3]
        exact evalArgs_unfix sig fs _ _ _ hg hev (fun b hb => hd b (List.mem_cons_of_mem _ hb)) h
      | true =>
        simp only [pickValue, hs, if_true] at h1
        cases fs with
        | nil => cases h1
        | cons e rest =>
          obtain ⟨k, fv⟩ := e
          simp only at h1
          by_cases hk : k.getD [] = a.name
          · rw [if_pos hk] at h1
            cases h1
            obtain ⟨g1, g2⟩ := hg _ (List.mem_cons_self ..)
            rw [hk] at g1 g2
            have hval : (lastGiven n1 l1 a.name).getD fv = fv := by
              rcases g1 with g | g <;> rw [g] <;> rfl
            rw [hval] at he h2
            rw [g2]
            simp only [Option.getD_some]
            rw [if_neg he, hev _ (List.mem_cons_self ..) _ _ h2]
            simp only [h3]
            exact evalArgs_unfix sig rest _ _ _ (fun e he => hg e (List.mem_cons_of_mem _ he)) (fun e he => hev e (List.mem_cons_of_mem _ he))
              (fun b hb => hd b (List.mem_cons_of_mem _ hb)) h
          · rw [if_neg hk] at h1; cases h1

/-- keywords everywhere, each once -/
def keyed (l : List (Option Bs × Val)) : Prop := (∀ e ∈ l, ∃ k, e.1 = some k) ∧ (l.map fun e => e.1.getD []).Nodup

mutual
def Keyed : Val → Prop
  | .str _ => True
  | .inv _ args => keyed (toList args) ∧ KeyedArgs args
def KeyedArgs : Args → Prop
  | .nil => True
  | .cons _ v r => Keyed v ∧ KeyedArgs r
end

theorem KeyedArgs.mem : ∀ (a : Args), KeyedArgs a → ∀ e ∈ toList a, Keyed e.2
  | .nil, _, e, he => by cases he
  | .cons k v r, h, e, he => by
    rw [toList, List.mem_cons] at he
    rcases he with rfl | he
    · exact h.1
    · exact KeyedArgs.mem r h.2 e he

theorem argNames_keyed {sig : List DArg} {l : List (Option Bs × Val)} (hk : keyed l) {names : List Bs} (h : argNames sig 0 true l = .ok names) :
    names = l.map fun e => e.1.getD [] := by
  obtain ⟨-, h2, h3⟩ := argNames_ok h
  apply List.ext_getElem?
  intro j
  rw [List.getElem?_map]
  cases hj : l[j]? with
  | none =>
    rw [Option.map_none, List.getElem?_eq_none_iff]
    rw [List.getElem?_eq_none_iff] at hj
    omega
  | some e =>
    obtain ⟨k, hk'⟩ := hk.1 e (List.mem_of_getElem? hj)
    obtain ⟨ek, ev⟩ := e
    cases hk'
    exact (h3 j k).mpr (Or.inl ⟨ev, hj⟩)

theorem lastGiven_keyed {l : List (Option Bs × Val)} (hk : keyed l) : ∀ e ∈ l, lastGiven (l.map fun e => e.1.getD []) l (e.1.getD []) = some e.2 := by
  intro e he
  refine (lastGiven_some (by simp)).mpr ?_
  obtain ⟨j, hj⟩ := List.getElem?_of_mem he
  refine ⟨j, e.1, hj, by simp [hj], ?_⟩
  intro j' hlt hc'
  have h3 := (List.getElem?_inj (List.getElem?_eq_some_iff.mp hc').1 hk.2 (j := j)).mp (by rw [hc']; simp [hj])
  omega

theorem openFixed_inv {fixed : Val} {n : Bs} {args : Args} {fs} (hne : isEmpty fixed = false) (h : openFixed fixed (.inv n args) = .ok fs) :
    ∃ fargs, fixed = .inv n fargs ∧ fs = some (toList fargs) := by
  unfold openFixed at h
  rw [hne] at h
  simp only [Bool.false_eq_true, if_false] at h
  cases fixed with
  | str x => cases h
  | inv fn fargs =>
    simp only at h
    by_cases hfn : fn = n
    · rw [if_pos hfn] at h
      cases h
      rw [hfn]
      exact ⟨fargs, rfl, rfl⟩
    · rw [if_neg hfn] at h; cases h

/-- evaluating the static arguments against themselves is evaluating them -/
theorem eval_self {types : Types} : ∀ (f : Nat) (t : Bs) (F : Val) (r : OptVal), Keyed F → allNamed F = true →
    eval types false f t F F = .ok r → eval types false f t F (.str []) = .ok r
  | 0, _, _, _, _, _, h => by cases h
  | f + 1, t, F, r, hk, hn, h => by
    by_cases ht : t = stringT
    · rw [eval_succ, if_pos ht] at h ⊢; exact h
    · obtain ⟨fs, cs, n, args, d, names, out, h1, h2, rfl, h4, h5, h6, h7, rfl⟩ := eval_ok h ht
      obtain ⟨fargs, e1, rfl⟩ := openFixed_inv (allNamed_nonempty hn) h1
      cases e1
      rw [Keyed] at hk
      have hnames := argNames_keyed hk.1 h5
      have hmem := KeyedArgs.mem args hk.2
      have hnm : ∀ e ∈ toList args, allNamed e.2 = true := by
        simp only [allNamed, Bool.and_eq_true] at hn
        exact (allNamedArgs_iff args).mp hn.2
      have key := evalArgs_unfix (ev := eval types false f) (n1 := names) (l1 := toList args) (n2 := names) (l2 := toList args) d.args (toList args) [] [] out
        (fun e he => by
          have := lastGiven_keyed hk.1 e he
          rw [← hnames] at this
          exact ⟨Or.inr this, this⟩)
        (fun e he t r hr => eval_self f t e.2 r (hmem e he) (hnm e he) hr) (fun _ _ _ => rfl) h6
      rw [eval_succ, if_neg ht, openFixed_none]
      show (match candidates types t, Val.inv n args with | none, _ => _ | some _, .str _ => _ | some cs, .inv n args => _) = _
      rw [h2]
      simp only [h4, h5, Except.bind, key, fixedUsed, if_true]

mutual
theorem Meta.keyed : ∀ m : Meta, m.Ok → Keyed m.staticArgs
  | .mk t n d f o, h => by
    rw [Meta.Ok] at h
    rw [Meta.staticArgs, Keyed]
    refine ⟨⟨fun e he => ?_, staticArgs_nodup o h.2.2.1⟩, Opts.keyed o h.2.2.2⟩
    obtain ⟨k, hk, -⟩ := staticArgs_kw o e he
    exact ⟨k, hk⟩
theorem Opts.keyed : ∀ o : Opts, o.Ok → KeyedArgs o.staticArgs
  | .nil, _ => trivial
  | .templ n t r, h => ⟨Meta.keyed t h.1, Opts.keyed r h.2⟩
  | .templD n t d r, h => ⟨Meta.keyed t h.1, Opts.keyed r h.2.2.2⟩
  | .dyn n r, h => Opts.keyed r h
  | .dynD n s r, h => Opts.keyed r h
  | .comp n r, h => Opts.keyed r h
end

theorem staticArgs_static : ∀ (o : Opts), ∀ e ∈ toList o.staticArgs, ∃ a ∈ o.args, a.isStatic = true ∧ e.1 = some a.name
  | .nil, e, he => by cases he
  | .templ n t r, e, he => by
    rw [Opts.staticArgs, toList, List.mem_cons] at he
    rw [Opts.args]
    rcases he with rfl | he
    · exact ⟨_, List.mem_cons_self .., rfl, rfl⟩
    · obtain ⟨a, h1, h2⟩ := staticArgs_static r e he
      exact ⟨a, List.mem_cons_of_mem _ h1, h2⟩
  | .templD n t d r, e, he => by
    rw [Opts.staticArgs, toList, List.mem_cons] at he
    rw [Opts.args]
    rcases he with rfl | he
    · exact ⟨_, List.mem_cons_self .., rfl, rfl⟩
    · obtain ⟨a, h1, h2⟩ := staticArgs_static r e he
      exact ⟨a, List.mem_cons_of_mem _ h1, h2⟩
  | .dyn n r, e, he => by
    obtain ⟨a, h1, h2⟩ := staticArgs_static r e he
    exact ⟨a, List.mem_cons_of_mem _ h1, h2⟩
  | .dynD n s r, e, he => by
    obtain ⟨a, h1, h2⟩ := staticArgs_static r e he
    exact ⟨a, List.mem_cons_of_mem _ h1, h2⟩
  | .comp n r, e, he => by
    obtain ⟨a, h1, h2⟩ := staticArgs_static r e he
    exact ⟨a, List.mem_cons_of_mem _ h1, h2⟩

theorem name_unique : ∀ {l : List DArg}, (l.map (·.name)).Nodup → ∀ {a b : DArg}, a ∈ l → b ∈ l → a.name = b.name → a = b
  | x :: t, hnd, a, b, ha, hb, h => by
    rw [List.map_cons, List.nodup_cons] at hnd
    rcases List.mem_cons.mp ha with rfl | ha' <;> rcases List.mem_cons.mp hb with rfl | hb'
    · rfl
    · exact absurd (List.mem_map_of_mem (f := (·.name)) hb') (by rw [← h]; exact hnd.1)
    · exact absurd (List.mem_map_of_mem (f := (·.name)) ha') (by rw [h]; exact hnd.1)
    · exact name_unique hnd.2 ha' hb' h

/-- the static options of `m` and the given dynamic ones -/
def fullList (m : Meta) (kws : List (Bs × Val)) : List (Option Bs × Val) := toList m.opts.staticArgs ++ kws.map fun e => (some e.1, e.2)

theorem eval_unfix {types : Types} (ok : TypesOk types) {m : Meta} (hok : m.Ok) (hin : m.In types) {kws : List (Bs × Val)}
    (hkws : ∀ e ∈ kws, ∃ a ∈ m.opts.args, a.name = e.1 ∧ a.isStatic = false) {fuel : Nat} {r : OptVal}
    (h : eval types false fuel m.type (.inv m.name (mkArgs (callList [] kws))) m.staticArgs = .ok r) :
    eval types false fuel m.type (.inv m.name (mkArgs (fullList m kws))) (.str []) = .ok r := by
  obtain ⟨t, n, dd, f, o⟩ := m
  have hnamed := Meta.Ok.named _ hok
  have hkeyed := Meta.keyed _ hok
  rw [Meta.Ok] at hok
  rw [Meta.In] at hin
  obtain ⟨⟨c, hc, hca⟩, -⟩ := hin
  obtain ⟨cs, hc1, hc2⟩ := (declared_iff ok).mp hc
  have hnd : (o.args.map (·.name)).Nodup := by rw [args_names]; exact hok.2.2.1
  simp only [Meta.opts, Meta.type, Meta.name, fullList] at hkws h ⊢
  cases fuel with
  | zero => cases h
  | succ fuel =>
    obtain ⟨fs, cs', n', args, d, names, out, h1, h2, h3, h4, h5, h6, h7, rfl⟩ := eval_ok h hok.1
    cases h3
    rw [hc1] at h2
    cases h2
    rw [hc2] at h4
    cases h4
    obtain ⟨fargs, e1, rfl⟩ := openFixed_inv (allNamed_nonempty hnamed) h1
    rw [Meta.staticArgs] at e1 hkeyed hnamed
    cases e1
    rw [Keyed] at hkeyed
    rw [toList_mkArgs] at h5 h6
    rw [hca] at h5 h6
    have hstat := staticArgs_static o
    -- the names of the complete list
    have hall : ∀ e ∈ toList o.staticArgs ++ kws.map (fun e => ((some e.1, e.2) : Option Bs × Val)), ∃ k, e.1 = some k ∧ defined o.args k = true := by
      intro e he
      rcases List.mem_append.mp he with he | he
      · obtain ⟨a, ha, -, hk⟩ := hstat e he
        exact ⟨a.name, hk, defined_iff.mpr ⟨a, ha, rfl⟩⟩
      · obtain ⟨x, hx, rfl⟩ := List.mem_map.mp he
        obtain ⟨a, ha, hk, -⟩ := hkws x hx
        exact ⟨x.1, rfl, defined_iff.mpr ⟨a, ha, hk⟩⟩
    have hnames : argNames o.args 0 true (toList o.staticArgs ++ kws.map (fun e => (some e.1, e.2))) =
        .ok ((toList o.staticArgs).map (fun e => e.1.getD []) ++ kws.map (·.1)) := by
      have key := (argNames_kw o.args (toList o.staticArgs ++ kws.map (fun e => (some e.1, e.2))) 0 _).mpr ⟨hall, rfl⟩
      rw [List.map_append, List.map_map] at key
      have hx : ((fun e : Option Bs × Val => e.1.getD []) ∘ fun e : Bs × Val => (some e.1, e.2)) = fun e => e.1 := rfl
      rw [hx] at key
      cases hl : toList o.staticArgs ++ kws.map (fun e => ((some e.1, e.2) : Option Bs × Val)) with
      | nil =>
        rw [hl] at key
        rw [← key]; rfl
      | cons e l =>
        rw [hl] at key hall
        obtain ⟨k, hk, -⟩ := hall e (List.mem_cons_self ..)
        obtain ⟨ek, ev⟩ := e
        cases hk
        exact key
    have hn1 : names = kws.map (·.1) := by
      rw [argNames_call] at h5
      split at h5
      · cases h5; simp
      · cases h5
    subst hn1
    have hl1 : callList [] kws = kws.map fun e => (some e.1, e.2) := rfl
    rw [hl1] at h6
    have happ : ∀ x, lastGiven ((toList o.staticArgs).map (fun e => e.1.getD []) ++ kws.map (·.1))
        (toList o.staticArgs ++ kws.map (fun e => (some e.1, e.2))) x =
        (lastGiven (kws.map (·.1)) (kws.map fun e => (some e.1, e.2)) x).or (lastGiven ((toList o.staticArgs).map (fun e => e.1.getD [])) (toList o.staticArgs) x) :=
      fun x => lastGiven_append (by simp) x
    have hkey : ∀ e ∈ toList o.staticArgs, lastGiven (kws.map (·.1)) (kws.map fun e => (some e.1, e.2)) (e.1.getD []) = none := by
      intro e he
      obtain ⟨a, ha, hs, hk⟩ := hstat e he
      rw [lastGiven_kws_none, hk]
      intro hm
      obtain ⟨x, hx, hxe⟩ := List.mem_map.mp hm
      obtain ⟨b, hb, hbn, hbs⟩ := hkws x hx
      have : a = b := name_unique hnd ha hb (by rw [hbn, hxe]; rfl)
      rw [this, hbs] at hs
      cases hs
    have hnm : ∀ e ∈ toList o.staticArgs, allNamed e.2 = true := by
      simp only [allNamed, Bool.and_eq_true] at hnamed
      exact (allNamedArgs_iff o.staticArgs).mp hnamed.2
    have key := evalArgs_unfix (ev := eval types false fuel) (n2 := (toList o.staticArgs).map (fun e => e.1.getD []) ++ kws.map (·.1))
      (l2 := toList o.staticArgs ++ kws.map (fun e => (some e.1, e.2))) o.args (toList o.staticArgs) [] [] out
      (fun e he => by
        refine ⟨Or.inl (hkey e he), ?_⟩
        rw [happ, hkey e he, lastGiven_keyed hkeyed.1 e he]
        rfl)
      (fun e he t r hr => eval_self fuel t e.2 r (KeyedArgs.mem _ hkeyed.2 e he) (hnm e he) hr)
      (fun a ha hs => by
        rw [happ]
        have : lastGiven ((toList o.staticArgs).map (fun e => e.1.getD [])) (toList o.staticArgs) a.name = none := by
          rw [lastGiven_none (by simp)]
          intro hm
          obtain ⟨e, he, hen⟩ := List.mem_map.mp hm
          obtain ⟨b, hb, hbs, hbk⟩ := hstat e he
          rw [hbk] at hen
          have : a = b := name_unique hnd ha hb (by rw [← hen]; rfl)
          rw [this, hbs] at hs
          cases hs
        rw [this]
        simp)
      h6
    rw [eval_succ, if_neg hok.1, openFixed_none]
    show (match candidates types t, Val.inv n (mkArgs (toList o.staticArgs ++ kws.map fun e => (some e.1, e.2))) with
      | none, _ => _ | some _, .str _ => _ | some cs, .inv n args => _) = _
    rw [hc1]
    simp only [hc2, toList_mkArgs, Except.bind]
    rw [hca, hnames]
    simp only
    rw [key]
    simp only [fixedUsed, if_true]

end Opt
end Tdc
