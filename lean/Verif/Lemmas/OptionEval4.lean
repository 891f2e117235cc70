import Verif.Lemmas.OptionEval3

namespace Tdc
namespace Opt

open Ast

/-! ## gathering declarations -/

theorem args_names : ∀ o : Opts, o.args.map (·.name) = o.names
  | .nil => rfl
  | .templ n t r => by simp [Opts.args, Opts.names, args_names r]
  | .templD n t d r => by simp [Opts.args, Opts.names, args_names r]
  | .dyn n r => by simp [Opts.args, Opts.names, args_names r]
  | .dynD n s r => by simp [Opts.args, Opts.names, args_names r]
  | .comp n r => by simp [Opts.args, Opts.names, args_names r]

theorem insertDecl_ok {cs cs' : List DAlg} {d : DAlg} (h : insertDecl cs d = .ok cs') :
    (∃ c ∈ cs, c.name = d.name ∧ c.args = d.args ∧ cs' = cs) ∨ (∀ c ∈ cs, c.name ≠ d.name) ∧ cs' = cs ++ [d] := by
  unfold insertDecl at h
  cases hf : cs.find? (fun c => c.name = d.name) with
  | some c =>
    rw [hf] at h
    simp only at h
    by_cases hs : c.same d = true
    · rw [if_pos hs] at h
      cases h
      simp only [DAlg.same, Bool.and_eq_true, decide_eq_true_eq] at hs
      exact Or.inl ⟨c, List.mem_of_find?_eq_some hf, hs.1.1, hs.1.2, rfl⟩
    · rw [if_neg hs] at h; cases h
  | none =>
    rw [hf] at h
    cases h
    refine Or.inr ⟨fun c hc => ?_, rfl⟩
    have := List.find?_eq_none.mp hf c hc
    simpa using this

/-- what inserting one declaration does -/
structure Inserted (types types' : Types) (t : Bs) (d : DAlg) : Prop where
  ok : TypesOk types → (d.args.map (·.name)).Nodup → TypesOk types'
  mono : ∀ t n c, Declared types t n c → Declared types' t n c
  here : ∃ c, Declared types' t d.name c ∧ c.args = d.args
  origin : ∀ t' n c, Declared types' t' n c → Declared types t' n c ∨ (t' = t ∧ c = d)
  keys : ∀ x, x ∈ types'.map (·.1) → x ∈ types.map (·.1) ∨ x = t

theorem declared_cons {e : Bs × List DAlg} {types : Types} {t n : Bs} {c : DAlg} :
    Declared (e :: types) t n c ↔ (e.1 = t ∧ c ∈ e.2 ∧ c.name = n) ∨ Declared types t n c := by
  unfold Declared
  constructor
  · rintro ⟨cs, h1, h2⟩
    rcases List.mem_cons.mp h1 with h | h
    · rw [← h]; exact Or.inl ⟨rfl, h2⟩
    · exact Or.inr ⟨cs, h, h2⟩
  · rintro (⟨rfl, h⟩ | ⟨cs, h1, h2⟩)
    · exact ⟨e.2, List.mem_cons_self .., h⟩
    · exact ⟨cs, List.mem_cons_of_mem _ h1, h2⟩

theorem typesOk_cons {e : Bs × List DAlg} {types : Types} : TypesOk (e :: types) ↔
    e.1 ∉ types.map (·.1) ∧ (e.2.map (·.name)).Nodup ∧ (∀ d ∈ e.2, (d.args.map (·.name)).Nodup) ∧ TypesOk types := by
  constructor
  · rintro ⟨h1, h2, h3⟩
    rw [List.map_cons, List.nodup_cons] at h1
    exact ⟨h1.1, h2 _ (List.mem_cons_self ..), h3 _ (List.mem_cons_self ..), h1.2, fun e he => h2 e (List.mem_cons_of_mem _ he),
      fun e he => h3 e (List.mem_cons_of_mem _ he)⟩
  · rintro ⟨h1, h2, h3, h4⟩
    refine ⟨by rw [List.map_cons, List.nodup_cons]; exact ⟨h1, h4.keys⟩, ?_, ?_⟩
    · intro x hx
      rcases List.mem_cons.mp hx with rfl | hx
      · exact h2
      · exact h4.names x hx
    · intro x hx
      rcases List.mem_cons.mp hx with rfl | hx
      · exact h3
      · exact h4.options x hx

theorem insertType_ok : ∀ (types types' : Types) (t : Bs) (d : DAlg), insertType types t d = .ok types' → Inserted types types' t d
  | [], types', t, d, h => by
    rw [insertType] at h
    obtain ⟨cs, h1, h2⟩ := bindOk h
    cases h2
    rcases insertDecl_ok h1 with ⟨c, hc, -⟩ | ⟨-, rfl⟩
    · cases hc
    · rw [List.nil_append]
      refine ⟨?_, ?_, ?_, ?_, ?_⟩
      · intro h1 h2
        rw [typesOk_cons]
        exact ⟨by simp, by simp, by simpa using h2, h1⟩
      · rintro t n c ⟨cs, hcs, -⟩
        cases hcs
      · exact ⟨d, declared_cons.mpr (Or.inl ⟨rfl, by simp, rfl⟩), rfl⟩
      · intro t' n c hc
        rcases declared_cons.mp hc with ⟨h1, h2, -⟩ | hc
        · exact Or.inr ⟨h1.symm, by simpa using h2⟩
        · exact Or.inl hc
      · intro x hx
        right
        simpa using hx
  | (t', cs) :: rest, types', t, d, h => by
    rw [insertType] at h
    by_cases ht : t' = t
    · rw [if_pos ht] at h
      obtain ⟨cs', h1, h2⟩ := bindOk h
      cases h2
      rcases insertDecl_ok h1 with ⟨c, hc, e1, e2, rfl⟩ | ⟨hnew, rfl⟩
      · refine ⟨fun h _ => h, fun _ _ _ h => h, ⟨c, declared_cons.mpr (Or.inl ⟨ht, hc, e1⟩), e2⟩, fun _ _ _ h => Or.inl h, fun x hx => Or.inl hx⟩
      · refine ⟨?_, ?_, ?_, ?_, ?_⟩
        · intro h1 h2
          rw [typesOk_cons] at h1 ⊢
          refine ⟨h1.1, ?_, ?_, h1.2.2.2⟩
          · rw [List.map_append, List.nodup_append']
            refine ⟨h1.2.1, by simp, ?_⟩
            intro x hx hx'
            obtain ⟨c, hc, rfl⟩ := List.mem_map.mp hx
            simp at hx'
            exact hnew c hc hx'
          · intro c hc
            rcases List.mem_append.mp hc with hc | hc
            · exact h1.2.2.1 c hc
            · rw [List.mem_singleton.mp hc]; exact h2
        · intro t2 n c hc
          rcases declared_cons.mp hc with ⟨h1, h2, h3⟩ | hc
          · exact declared_cons.mpr (Or.inl ⟨h1, List.mem_append_left _ h2, h3⟩)
          · exact declared_cons.mpr (Or.inr hc)
        · exact ⟨d, declared_cons.mpr (Or.inl ⟨ht, by simp, rfl⟩), rfl⟩
        · intro t2 n c hc
          rcases declared_cons.mp hc with ⟨h1, h2, h3⟩ | hc
          · rcases List.mem_append.mp h2 with h2 | h2
            · exact Or.inl (declared_cons.mpr (Or.inl ⟨h1, h2, h3⟩))
            · exact Or.inr ⟨by rw [← h1, ← ht], List.mem_singleton.mp h2⟩
          · exact Or.inl (declared_cons.mpr (Or.inr hc))
        · intro x hx
          exact Or.inl (by simpa using hx)
    · rw [if_neg ht] at h
      obtain ⟨r, h1, h2⟩ := bindOk h
      cases h2
      obtain ⟨i1, i2, ⟨c, i3, i3'⟩, i4, i5⟩ := insertType_ok rest r t d h1
      refine ⟨?_, ?_, ?_, ?_, ?_⟩
      · intro h1 h2
        rw [typesOk_cons] at h1 ⊢
        refine ⟨?_, h1.2.1, h1.2.2.1, i1 h1.2.2.2 h2⟩
        intro hc
        rcases i5 _ hc with hc | hc
        · exact h1.1 hc
        · exact ht hc
      · intro t2 n c hc
        rcases declared_cons.mp hc with hc | hc
        · exact declared_cons.mpr (Or.inl hc)
        · exact declared_cons.mpr (Or.inr (i2 _ _ _ hc))
      · exact ⟨c, declared_cons.mpr (Or.inr i3), i3'⟩
      · intro t2 n c hc
        rcases declared_cons.mp hc with hc | hc
        · exact Or.inl (declared_cons.mpr (Or.inl hc))
        · rcases i4 _ _ _ hc with hc | hc
          · exact Or.inl (declared_cons.mpr (Or.inr hc))
          · exact Or.inr hc
      · intro x hx
        rw [List.map_cons, List.mem_cons] at hx
        rcases hx with hx | hx
        · exact Or.inl (by simp [hx])
        · rcases i5 x hx with hx | hx
          · exact Or.inl (List.mem_cons_of_mem _ hx)
          · exact Or.inr hx

mutual
/-- the algorithm and all its template arguments are declared -/
def Meta.In (types : Types) : Meta → Prop
  | .mk t n _ _ o => (∃ c, Declared types t n c ∧ c.args = o.args) ∧ o.In types
def Opts.In (types : Types) : Opts → Prop
  | .nil => True
  | .templ _ t r => t.In types ∧ r.In types
  | .templD _ t d r => t.In types ∧ d.In types ∧ r.In types
  | .dyn _ r => r.In types
  | .dynD _ _ r => r.In types
  | .comp _ r => r.In types
end

mutual
theorem Meta.In.mono {types types' : Types} (h : ∀ t n c, Declared types t n c → Declared types' t n c) : ∀ m : Meta, m.In types → m.In types'
  | .mk t n _ _ o, hm => by
    rw [Meta.In] at hm ⊢
    obtain ⟨⟨c, h1, h2⟩, h3⟩ := hm
    exact ⟨⟨c, h _ _ _ h1, h2⟩, Opts.In.mono h o h3⟩
theorem Opts.In.mono {types types' : Types} (h : ∀ t n c, Declared types t n c → Declared types' t n c) : ∀ o : Opts, o.In types → o.In types'
  | .nil, _ => trivial
  | .templ _ t r, hm => ⟨Meta.In.mono h t hm.1, Opts.In.mono h r hm.2⟩
  | .templD _ t d r, hm => ⟨Meta.In.mono h t hm.1, Meta.In.mono h d hm.2.1, Opts.In.mono h r hm.2.2⟩
  | .dyn _ r, hm => Opts.In.mono h r hm
  | .dynD _ _ r, hm => Opts.In.mono h r hm
  | .comp _ r, hm => Opts.In.mono h r hm
end

/-- where declarations come from: an earlier map, or options all of whose template arguments are declared -/
def FromOpts (types' : Types) (c : DAlg) : Prop := ∃ o : Opts, c.args = o.args ∧ o.Ok ∧ o.In types'

structure Gathered (types types' : Types) : Prop where
  ok : TypesOk types → TypesOk types'
  mono : ∀ t n c, Declared types t n c → Declared types' t n c
  origin : ∀ t n c, Declared types' t n c → Declared types t n c ∨ FromOpts types' c
  keys : stringT ∉ types.map (·.1) → stringT ∉ types'.map (·.1)

theorem Gathered.refl (types : Types) : Gathered types types := ⟨fun h => h, fun _ _ _ h => h, fun _ _ _ h => Or.inl h, fun h => h⟩

theorem FromOpts.mono {types types' : Types} (h : ∀ t n c, Declared types t n c → Declared types' t n c) {c : DAlg} :
    FromOpts types c → FromOpts types' c := by
  rintro ⟨o, h1, h2, h3⟩
  exact ⟨o, h1, h2, Opts.In.mono h o h3⟩

theorem Gathered.trans {a b c : Types} (h : Gathered a b) (h' : Gathered b c) : Gathered a c := by
  refine ⟨fun x => h'.ok (h.ok x), fun t n d x => h'.mono _ _ _ (h.mono _ _ _ x), ?_, fun x => h'.keys (h.keys x)⟩
  intro t n d x
  rcases h'.origin _ _ _ x with x | x
  · rcases h.origin _ _ _ x with x | x
    · exact Or.inl x
    · exact Or.inr (x.mono h'.mono)
  · exact Or.inr x

mutual
theorem gather_ok : ∀ (m : Meta) (types types' : Types), m.Ok → m.gather types = .ok types' → Gathered types types' ∧ m.In types'
  | .mk t n d f o, types, types', hok, h => by
    rw [Meta.gather] at h
    rw [Meta.Ok] at hok
    obtain ⟨ty, h1, h2⟩ := bindOk h
    have hi := insertType_ok _ _ _ _ h1
    obtain ⟨g, gi⟩ := gather_opts_ok o ty types' hok.2.2.2 h2
    constructor
    · refine ⟨fun x => g.ok (hi.ok x (by rw [args_names]; exact hok.2.2.1)), fun t n c x => g.mono _ _ _ (hi.mono _ _ _ x), ?_, ?_⟩
      · intro t' n' c hc
        rcases g.origin _ _ _ hc with hc | hc
        · rcases hi.origin _ _ _ hc with hc | ⟨-, hc⟩
          · exact Or.inl hc
          · exact Or.inr ⟨o, by rw [hc], hok.2.2.2, gi⟩
        · exact Or.inr hc
      · intro hs
        apply g.keys
        intro hc
        rcases hi.keys _ hc with hc | hc
        · exact hs hc
        · exact hok.1 hc.symm
    · rw [Meta.In]
      obtain ⟨c, hc, ha⟩ := hi.here
      exact ⟨⟨c, g.mono _ _ _ hc, ha⟩, gi⟩
theorem gather_opts_ok : ∀ (o : Opts) (types types' : Types), o.Ok → o.gather types = .ok types' → Gathered types types' ∧ o.In types'
  | .nil, types, types', _, h => by
    rw [Opts.gather] at h
    cases h
    exact ⟨Gathered.refl _, trivial⟩
  | .templ _ t r, types, types', hok, h => by
    rw [Opts.gather] at h
    obtain ⟨ty, h1, h2⟩ := bindOk h
    obtain ⟨g1, i1⟩ := gather_ok t types ty hok.1 h1
    obtain ⟨g2, i2⟩ := gather_opts_ok r ty types' hok.2 h2
    exact ⟨g1.trans g2, Meta.In.mono g2.mono t i1, i2⟩
  | .templD _ t d r, types, types', hok, h => by
    rw [Opts.gather] at h
    obtain ⟨ty, h1, h⟩ := bindOk h
    obtain ⟨ty', h2, h3⟩ := bindOk h
    obtain ⟨g1, i1⟩ := gather_ok t types ty hok.1 h1
    obtain ⟨g2, i2⟩ := gather_ok d ty ty' hok.2.1 h2
    obtain ⟨g3, i3⟩ := gather_opts_ok r ty' types' hok.2.2.2 h3
    exact ⟨(g1.trans g2).trans g3, Meta.In.mono (g2.trans g3).mono t i1, Meta.In.mono g3.mono d i2, i3⟩
  | .dyn _ r, types, types', hok, h => gather_opts_ok r types types' hok h
  | .dynD _ _ r, types, types', hok, h => gather_opts_ok r types types' hok h
  | .comp _ r, types, types', hok, h => gather_opts_ok r types types' hok h
end

theorem typesOk_nil : TypesOk [] := ⟨by simp, by simp, by simp⟩

theorem built_ok {types : Types} (h : Built types) : TypesOk types ∧ (∀ t n c, Declared types t n c → FromOpts types c) ∧
    stringT ∉ types.map (·.1) := by
  induction h with
  | empty => exact ⟨typesOk_nil, fun t n c ⟨cs, h, _⟩ => (by cases h), by simp⟩
  | gather m types types' _ hok hg ih =>
    obtain ⟨g, -⟩ := gather_ok m types types' hok hg
    refine ⟨g.ok ih.1, ?_, g.keys ih.2.2⟩
    intro t n c hc
    rcases g.origin _ _ _ hc with hc | hc
    · exact (ih.2.1 _ _ _ hc).mono g.mono
    · exact hc

/-! ## the static arguments of a registered class select it -/

theorem staticArgs_kw : ∀ (o : Opts), ∀ e ∈ toList o.staticArgs, ∃ k, e.1 = some k ∧ k ∈ o.names
  | .nil, e, he => by cases he
  | .templ n t r, e, he => by
    rw [Opts.staticArgs, toList, List.mem_cons] at he
    rcases he with rfl | he
    · exact ⟨n, rfl, by simp [Opts.names]⟩
    · obtain ⟨k, h1, h2⟩ := staticArgs_kw r e he
      exact ⟨k, h1, by simp [Opts.names, h2]⟩
  | .templD n t d r, e, he => by
    rw [Opts.staticArgs, toList, List.mem_cons] at he
    rcases he with rfl | he
    · exact ⟨n, rfl, by simp [Opts.names]⟩
    · obtain ⟨k, h1, h2⟩ := staticArgs_kw r e he
      exact ⟨k, h1, by simp [Opts.names, h2]⟩
  | .dyn n r, e, he => by
    obtain ⟨k, h1, h2⟩ := staticArgs_kw r e he
    exact ⟨k, h1, by simp [Opts.names, h2]⟩
  | .dynD n s r, e, he => by
    obtain ⟨k, h1, h2⟩ := staticArgs_kw r e he
    exact ⟨k, h1, by simp [Opts.names, h2]⟩
  | .comp n r, e, he => by
    obtain ⟨k, h1, h2⟩ := staticArgs_kw r e he
    exact ⟨k, h1, by simp [Opts.names, h2]⟩

mutual
theorem Meta.Ok.named : ∀ m : Meta, m.Ok → allNamed m.staticArgs = true
  | .mk t n d f o, h => by
    rw [Meta.Ok] at h
    rw [Meta.staticArgs, allNamed, Opts.Ok.named o h.2.2.2]
    simp [h.2.1]
theorem Opts.Ok.named : ∀ o : Opts, o.Ok → allNamedArgs o.staticArgs = true
  | .nil, _ => rfl
  | .templ n t r, h => by rw [Opts.staticArgs, allNamedArgs, Meta.Ok.named t h.1, Opts.Ok.named r h.2]; rfl
  | .templD n t d r, h => by rw [Opts.staticArgs, allNamedArgs, Meta.Ok.named t h.1, Opts.Ok.named r h.2.2.2]; rfl
  | .dyn n r, h => Opts.Ok.named r h
  | .dynD n s r, h => Opts.Ok.named r h
  | .comp n r, h => Opts.Ok.named r h
end

mutual
theorem register_eval {types : Types} (ok : TypesOk types) : ∀ m : Meta, m.Ok → m.In types →
    ∃ fuel ms f, eval types true fuel m.type m.staticArgs (.str []) = .ok (.alg m.name ms (valPat m.staticArgs) f)
  | .mk t n d f o, hok, hin => by
    have hnamed := Meta.Ok.named _ hok
    rw [Meta.Ok] at hok
    rw [Meta.In] at hin
    obtain ⟨⟨c, hc, hca⟩, hin2⟩ := hin
    obtain ⟨cs, h1, h2⟩ := (declared_iff ok).mp hc
    have hall : ∀ e ∈ toList o.staticArgs, ∃ k, e.1 = some k ∧ defined c.args k = true := by
      intro e he
      obtain ⟨k, hk, hk2⟩ := staticArgs_kw o e he
      refine ⟨k, hk, defined_iff.mpr ?_⟩
      rw [← args_names, List.mem_map] at hk2
      rw [hca]
      exact hk2
    have hnames : argNames c.args 0 true (toList o.staticArgs) = .ok ((toList o.staticArgs).map fun e => e.1.getD []) := by
      have key := (argNames_kw c.args (toList o.staticArgs) 0 ((toList o.staticArgs).map fun e => e.1.getD [])).mpr ⟨hall, rfl⟩
      cases hl : toList o.staticArgs with
      | nil => rfl
      | cons e l =>
        rw [hl] at key hall
        obtain ⟨k, hk, -⟩ := hall e (List.mem_cons_self ..)
        obtain ⟨ek, ev⟩ := e
        cases hk
        exact key
    obtain ⟨fuel, dy, hev⟩ := register_opts ok o hok.2.2.2 hin2 ((toList o.staticArgs).map fun e => e.1.getD []) (toList o.staticArgs) hok.2.2.1
      (by
        intro e he
        refine (lastGiven_some (by simp)).mpr ?_
        obtain ⟨j, hj⟩ := List.getElem?_of_mem he
        refine ⟨j, e.1, hj, by simp [hj], ?_⟩
        intro j' hlt hc'
        have hnd : ((toList o.staticArgs).map fun e => e.1.getD []).Nodup := staticArgs_nodup o hok.2.2.1
        have h3 := (List.getElem?_inj (List.getElem?_eq_some_iff.mp hc').1 hnd (j := j)).mp (by rw [hc']; simp [hj])
        omega)
    refine ⟨fuel + 1, dy [] [], c.flags, ?_⟩
    rw [eval_succ, show Meta.type (.mk t n d f o) = t from rfl, if_neg hok.1, openFixed_none]
    show (match candidates types t, Meta.staticArgs (.mk t n d f o) with | none, _ => _ | some _, .str _ => _ | some cs, .inv n args => _) = _
    rw [h1, Meta.staticArgs]
    simp only [h2, hnames, Except.bind]
    rw [hca, hev]
    simp only [fixedUsed, if_true, List.nil_append]
    rw [ofList_listPat, (lookupAlg_name h2).1]
    rfl
theorem register_opts {types : Types} (ok : TypesOk types) : ∀ o : Opts, o.Ok → o.In types → ∀ (names : List Bs) (l : List (Option Bs × Val)),
    o.names.Nodup → (∀ e ∈ toList o.staticArgs, lastGiven names l (e.1.getD []) = some e.2) →
    ∃ (fuel : Nat) (dy : List (Bs × Pat) → List (Bs × OptVal) → List (Bs × OptVal)), ∀ stat dyn,
      evalArgs (eval types true fuel) true names l o.args none stat dyn = .ok (none, stat ++ listPat (toList o.staticArgs), dy stat dyn)
  | .nil, _, _, names, l, _, _ => ⟨0, fun _ dyn => dyn, fun stat dyn => by simp [Opts.args, evalArgs, Opts.staticArgs, toList, listPat]⟩
  | .templ n t r, hok, hin, names, l, hnd, hg => by
    obtain ⟨f1, ms, fl, h1⟩ := register_eval ok t hok.1 hin.1
    obtain ⟨f2, dy, h2⟩ := register_opts ok r hok.2 hin.2 names l (List.nodup_cons.mp hnd).2
      (fun e he => hg e (by rw [Opts.staticArgs, toList]; exact List.mem_cons_of_mem _ he))
    have hgive := hg (some n, t.staticArgs) (by rw [Opts.staticArgs, toList]; exact List.mem_cons_self ..)
    refine ⟨max f1 f2, fun stat dyn => dy (stat ++ [(n, valPat t.staticArgs)]) (mapSet dyn n (.alg t.name ms (valPat t.staticArgs) fl)), ?_⟩
    intro stat dyn
    rw [Opts.args, evalArgs]
    simp only [Bool.not_true, Bool.and_false, Bool.false_eq_true, if_false, pickValue, Except.bind]
    simp only [Option.getD_some] at hgive
    rw [hgive]
    simp only [Option.getD_some]
    rw [allNamed_nonempty (Meta.Ok.named t hok.1), eval_mono f1 _ _ _ _ _ (Nat.le_max_left ..) h1]
    simp only [Bool.false_eq_true, if_false, addStatic, if_true]
    rw [if_neg (valPat_name (Meta.Ok.named t hok.1))]
    simp only
    rw [evalArgs_mono (fun t v f r => eval_mono f2 _ t v f r (Nat.le_max_right ..)) _ _ _ _ _ (h2 _ _)]
    simp [Opts.staticArgs, toList, listPat]
  | .templD n t d r, hok, hin, names, l, hnd, hg => by
    obtain ⟨f1, ms, fl, h1⟩ := register_eval ok t hok.1 hin.1
    obtain ⟨f2, dy, h2⟩ := register_opts ok r hok.2.2.2 hin.2.2 names l (List.nodup_cons.mp hnd).2
      (fun e he => hg e (by rw [Opts.staticArgs, toList]; exact List.mem_cons_of_mem _ he))
    have hgive := hg (some n, t.staticArgs) (by rw [Opts.staticArgs, toList]; exact List.mem_cons_self ..)
    refine ⟨max f1 f2, fun stat dyn => dy (stat ++ [(n, valPat t.staticArgs)]) (mapSet dyn n (.alg t.name ms (valPat t.staticArgs) fl)), ?_⟩
    intro stat dyn
    rw [Opts.args, evalArgs]
    simp only [Bool.not_true, Bool.and_false, Bool.false_eq_true, if_false, pickValue, Except.bind]
    simp only [Option.getD_some] at hgive
    rw [hgive]
    simp only [Option.getD_some]
    rw [← hok.2.2.1, allNamed_nonempty (Meta.Ok.named t hok.1), eval_mono f1 _ _ _ _ _ (Nat.le_max_left ..) h1]
    simp only [Bool.false_eq_true, if_false, addStatic, if_true]
    rw [if_neg (valPat_name (Meta.Ok.named t hok.1))]
    simp only
    rw [evalArgs_mono (fun t v f r => eval_mono f2 _ t v f r (Nat.le_max_right ..)) _ _ _ _ _ (h2 _ _)]
    simp [Opts.staticArgs, toList, listPat]
  | .dyn n r, hok, hin, names, l, hnd, hg => by
    obtain ⟨f2, dy, h2⟩ := register_opts ok r hok hin names l (List.nodup_cons.mp hnd).2 hg
    refine ⟨f2, dy, fun stat dyn => ?_⟩
    rw [Opts.args, evalArgs]
    simp only [Bool.not_false, Bool.and_true, if_true]
    exact h2 _ _
  | .dynD n s r, hok, hin, names, l, hnd, hg => by
    obtain ⟨f2, dy, h2⟩ := register_opts ok r hok hin names l (List.nodup_cons.mp hnd).2 hg
    refine ⟨f2, dy, fun stat dyn => ?_⟩
    rw [Opts.args, evalArgs]
    simp only [Bool.not_false, Bool.and_true, if_true]
    exact h2 _ _
  | .comp n r, hok, hin, names, l, hnd, hg => by
    obtain ⟨f2, dy, h2⟩ := register_opts ok r hok hin names l (List.nodup_cons.mp hnd).2 hg
    refine ⟨f2, dy, fun stat dyn => ?_⟩
    rw [Opts.args, evalArgs]
    simp only [Bool.not_false, Bool.and_true, if_true]
    exact h2 _ _
theorem staticArgs_nodup : ∀ o : Opts, o.names.Nodup → ((toList o.staticArgs).map fun e => e.1.getD []).Nodup
  | .nil, _ => by simp [Opts.staticArgs, toList]
  | .templ n t r, h => by
    rw [Opts.names, List.nodup_cons] at h
    rw [Opts.staticArgs, toList, List.map_cons, List.nodup_cons]
    refine ⟨fun hc => ?_, staticArgs_nodup r h.2⟩
    obtain ⟨e, he, h2⟩ := List.mem_map.mp hc
    obtain ⟨k, hk, hk2⟩ := staticArgs_kw r e he
    rw [hk] at h2
    simp only [Option.getD_some] at h2
    exact h.1 (by rw [← h2]; exact hk2)
  | .templD n t d r, h => by
    rw [Opts.names, List.nodup_cons] at h
    rw [Opts.staticArgs, toList, List.map_cons, List.nodup_cons]
    refine ⟨fun hc => ?_, staticArgs_nodup r h.2⟩
    obtain ⟨e, he, h2⟩ := List.mem_map.mp hc
    obtain ⟨k, hk, hk2⟩ := staticArgs_kw r e he
    rw [hk] at h2
    simp only [Option.getD_some] at h2
    exact h.1 (by rw [← h2]; exact hk2)
  | .dyn n r, h => staticArgs_nodup r (List.nodup_cons.mp h).2
  | .dynD n s r, h => staticArgs_nodup r (List.nodup_cons.mp h).2
  | .comp n r, h => staticArgs_nodup r (List.nodup_cons.mp h).2
end

end Opt
end Tdc
