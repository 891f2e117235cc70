import Verif.Lemmas.OptionEval4

namespace Tdc
namespace Opt

open Ast

/-! ## termination -/

mutual
/-- nesting depth of a value -/
def vdepth : Val → Nat
  | .str _ => 0
  | .inv _ args => adepth args + 1
def adepth : Args → Nat
  | .nil => 0
  | .cons _ v r => max (vdepth v) (adepth r)
end

theorem adepth_mem : ∀ (a : Args) (e : Option Bs × Val), e ∈ toList a → vdepth e.2 ≤ adepth a
  | .nil, e, h => by cases h
  | .cons k v r, e, h => by
    rw [toList, List.mem_cons] at h
    rw [adepth]
    rcases h with rfl | h
    · exact Nat.le_max_left ..
    · exact Nat.le_trans (adepth_mem r e h) (Nat.le_max_right ..)

theorem lastGiven_mem {names : List Bs} {l : List (Option Bs × Val)} {n : Bs} {v : Val} (h : lastGiven names l n = some v) : ∃ e ∈ l, e.2 = v := by
  unfold lastGiven at h
  have key : ∀ (z : List (Bs × Option Bs × Val)) (s : Option Val), z.foldl (fun found e => if e.1 = n then some e.2.2 else found) s = some v →
      (∃ e ∈ z, e.2.2 = v) ∨ s = some v := by
    intro z
    induction z with
    | nil => intro s h; exact Or.inr h
    | cons x t ih =>
      intro s h
      rw [List.foldl_cons] at h
      rcases ih _ h with ⟨e, he, h2⟩ | h2
      · exact Or.inl ⟨e, List.mem_cons_of_mem _ he, h2⟩
      · split at h2
        · cases h2; exact Or.inl ⟨x, List.mem_cons_self .., rfl⟩
        · exact Or.inr h2
  rcases key _ _ h with ⟨e, he, h2⟩ | h2
  · exact ⟨e.2, (List.of_mem_zip (a := e.1) (b := e.2) he).2, h2⟩
  · cases h2

theorem argNames_noloop (sig : List DArg) : ∀ (l : List (Option Bs × Val)) (i : Nat) (b : Bool), argNames sig i b l ≠ .error .loop
  | [], i, b => by rw [argNames]; simp
  | (none, v) :: t, i, b => by
    rw [argNames]
    have ih := argNames_noloop sig t (i + 1) b
    cases b with
    | false => simp
    | true =>
      simp only [if_true]
      cases sig[i]? with
      | none => simp
      | some a =>
        simp only
        by_cases hd : defined sig a.name = true
        · rw [if_pos hd]
          cases hx : argNames sig (i + 1) true t with
          | ok r => simp [Except.bind]
          | error e =>
            rw [hx] at ih
            simpa [Except.bind] using ih
        · rw [if_neg hd]; simp
  | (some k, v) :: t, i, b => by
    rw [argNames]
    have ih := argNames_noloop sig t i false
    by_cases hd : defined sig k = true
    · rw [if_pos hd]
      cases hx : argNames sig i false t with
      | ok r => simp [Except.bind]
      | error e =>
        rw [hx] at ih
        simpa [Except.bind] using ih
    · rw [if_neg hd]; simp

theorem evalArgs_noloop {ev : Bs → Val → Val → Out OptVal} {pat : Bool} {names : List Bs} {l : List (Option Bs × Val)} :
    ∀ (sig : List DArg) (fixed : Option (List (Option Bs × Val))) (stat : List (Bs × Pat)) (dyn : List (Bs × OptVal)),
    (∀ a ∈ sig, ∀ v, lastGiven names l a.name = some v → ∀ fv, (fv = .str [] ∨ ∃ fs, fixed = some fs ∧ ∃ e ∈ fs, e.2 = fv) →
      ev a.type v fv ≠ .error .loop) →
    (∀ a ∈ sig, ∀ v, a.dflt = some v → ev a.type v (.str []) ≠ .error .loop) →
    (∀ fs, fixed = some fs → ∀ a ∈ sig, ∀ e ∈ fs, ev a.type e.2 e.2 ≠ .error .loop) →
    evalArgs ev pat names l sig fixed stat dyn ≠ .error .loop
  | [], fixed, stat, dyn, _, _, _ => by rw [evalArgs]; simp
  | a :: sig, fixed, stat, dyn, h1, h2, h3 => by
    have ih : ∀ (fixed' : Option (List (Option Bs × Val))) stat' dyn', (∀ fs', fixed' = some fs' → ∃ fs, fixed = some fs ∧ ∀ e ∈ fs', e ∈ fs) →
        evalArgs ev pat names l sig fixed' stat' dyn' ≠ .error .loop := by
      intro fixed' stat' dyn' hsub
      apply evalArgs_noloop sig fixed' stat' dyn'
      · rintro b hb v hv fv (hfv | ⟨fs', hf', e, he, hev⟩)
        · exact h1 b (List.mem_cons_of_mem _ hb) v hv fv (Or.inl hfv)
        · obtain ⟨fs, hf, hs⟩ := hsub fs' hf'
          exact h1 b (List.mem_cons_of_mem _ hb) v hv fv (Or.inr ⟨fs, hf, e, hs e he, hev⟩)
      · exact fun b hb => h2 b (List.mem_cons_of_mem _ hb)
      · intro fs' hf' b hb e he
        obtain ⟨fs, hf, hs⟩ := hsub fs' hf'
        exact h3 fs hf b (List.mem_cons_of_mem _ hb) e (hs e he)
    rw [evalArgs]
    by_cases hp : (pat && !a.isStatic) = true
    · rw [if_pos hp]
      exact ih _ _ _ (fun fs' h => ⟨fs', h, fun e he => he⟩)
    · rw [if_neg hp]
      cases hq : pickValue (lastGiven names l a.name) fixed a with
      | error e =>
        have : e ≠ .loop := by
          rintro rfl
          unfold pickValue at hq
          cases fixed with
          | none => cases hq
          | some fs =>
            simp only at hq
            split at hq
            · cases fs with
              | nil => cases hq
              | cons x y => simp only at hq; split at hq <;> cases hq
            · cases hq
        simpa [Except.bind] using this
      | ok p =>
        show (if isEmpty p.1 = true then _ else _) ≠ _
        by_cases he : isEmpty p.1 = true
        · rw [if_pos he]; simp
        · rw [if_neg he]
          have hcase : ev a.type p.1 p.2.1 ≠ .error .loop ∧ (∀ fs', p.2.2 = some fs' → ∃ fs, fixed = some fs ∧ ∀ e ∈ fs', e ∈ fs) := by
            have hplain : ∀ x, x = (lastGiven names l a.name).getD (a.dflt.getD (.str [])) → isEmpty x = false → ev a.type x (.str []) ≠ .error .loop := by
              rintro x rfl hx
              cases hg : lastGiven names l a.name with
              | some v => exact h1 a (List.mem_cons_self ..) v hg _ (Or.inl rfl)
              | none =>
                rw [hg] at hx
                cases hd : a.dflt with
                | none => rw [hd] at hx; simp [isEmpty] at hx
                | some v => exact h2 a (List.mem_cons_self ..) v hd
            cases fixed with
            | none =>
              simp only [pickValue] at hq
              cases hq
              exact ⟨hplain _ rfl (by simpa using he), fun _ h => by cases h⟩
            | some fs =>
              simp only [pickValue] at hq
              by_cases hs : a.isStatic = true
              · rw [if_pos hs] at hq
                cases fs with
                | nil => cases hq
                | cons x rest =>
                  obtain ⟨k, fv⟩ := x
                  simp only at hq
                  by_cases hk : k.getD [] = a.name
                  · rw [if_pos hk] at hq
                    cases hq
                    refine ⟨?_, fun fs' hf => ⟨_, rfl, fun e he => ?_⟩⟩
                    · cases hg : lastGiven names l a.name with
                      | some v => exact h1 a (List.mem_cons_self ..) v hg fv (Or.inr ⟨_, rfl, _, List.mem_cons_self .., rfl⟩)
                      | none => exact h3 _ rfl a (List.mem_cons_self ..) (k, fv) (List.mem_cons_self ..)
                    · cases hf
                      exact List.mem_cons_of_mem _ he
                  · rw [if_neg hk] at hq; cases hq
              · rw [if_neg hs] at hq
                cases hq
                exact ⟨hplain _ rfl (by simpa using he), fun fs' h => ⟨fs', h, fun e he => he⟩⟩
          cases hx : ev a.type p.1 p.2.1 with
          | error e =>
            have := hcase.1
            rw [hx] at this
            simpa [Except.bind] using this
          | ok r =>
            show (addStatic a r stat).bind _ ≠ _
            cases hy : addStatic a r stat with
            | error e =>
              have : e ≠ .loop := by
                rintro rfl
                unfold addStatic at hy
                split at hy
                · cases r with
                  | str x => cases hy
                  | alg n m s f => simp only at hy; split at hy <;> cases hy
                · cases hy
              simpa [Except.bind] using this
            | ok st => exact ih _ _ _ hcase.2

/-- the shape of a non-terminating call -/
theorem eval_noloop_of {types : Types} {pat : Bool} {fuel : Nat} {type : Bs} {v fixed : Val}
    (h : type ≠ stringT → ∀ n args d cs names fs, v = .inv n args → candidates types type = some cs → lookupAlg cs n = some d →
      argNames d.args 0 true (toList args) = .ok names → openFixed fixed v = .ok fs →
      evalArgs (eval types pat fuel) pat names (toList args) d.args fs [] [] ≠ .error .loop) :
    eval types pat (fuel + 1) type v fixed ≠ .error .loop := by
  rw [eval_succ]
  by_cases ht : type = stringT
  · rw [if_pos ht]; cases v <;> simp
  · rw [if_neg ht]
    cases ho : openFixed fixed v with
    | error e =>
      have : e ≠ .loop := by
        rintro rfl
        unfold openFixed at ho
        split at ho
        · cases ho
        · cases fixed <;> cases v <;> simp only at ho <;> try cases ho
          split at ho <;> cases ho
      simpa [Except.bind] using this
    | ok fs =>
      show (match candidates types type, v with | none, _ => _ | some _, .str _ => _ | some cs, .inv n args => _) ≠ _
      cases hc : candidates types type with
      | none => simp
      | some cs =>
        cases v with
        | str x => simp
        | inv n args =>
          simp only
          cases hl : lookupAlg cs n with
          | none => simp
          | some d =>
            simp only
            cases hn : argNames d.args 0 true (toList args) with
            | error e =>
              have : e ≠ .loop := fun he => argNames_noloop _ _ _ _ (by rw [hn, he])
              simpa [Except.bind] using this
            | ok names =>
              have := h ht n args d cs names fs rfl hc hl hn ho
              show (evalArgs _ _ _ _ _ _ _ _).bind _ ≠ _
              cases hx : evalArgs (eval types pat fuel) pat names (toList args) d.args fs [] [] with
              | error e =>
                rw [hx] at this
                simpa [Except.bind] using this
              | ok r =>
                show (if fixedUsed r.1 = true then _ else _) ≠ _
                split <;> simp

/-- every value of a default is given by the default of its algorithm -/
theorem dflts_given : ∀ (o : Opts), ∀ a ∈ o.args, (some a.name, a.dflt.getD (.str [])) ∈ toList o.dflts
  | .nil, a, h => by cases h
  | .templ n t r, a, h => by
    rw [Opts.args, List.mem_cons] at h
    rw [Opts.dflts, toList]
    rcases h with rfl | h
    · exact List.mem_cons_self ..
    · exact List.mem_cons_of_mem _ (dflts_given r a h)
  | .templD n t d r, a, h => by
    rw [Opts.args, List.mem_cons] at h
    rw [Opts.dflts, toList]
    rcases h with rfl | h
    · exact List.mem_cons_self ..
    · exact List.mem_cons_of_mem _ (dflts_given r a h)
  | .dyn n r, a, h => by
    rw [Opts.args, List.mem_cons] at h
    rw [Opts.dflts, toList]
    rcases h with rfl | h
    · exact List.mem_cons_self ..
    · exact List.mem_cons_of_mem _ (dflts_given r a h)
  | .dynD n s r, a, h => by
    rw [Opts.args, List.mem_cons] at h
    rw [Opts.dflts, toList]
    rcases h with rfl | h
    · exact List.mem_cons_self ..
    · exact List.mem_cons_of_mem _ (dflts_given r a h)
  | .comp n r, a, h => by
    rw [Opts.args, List.mem_cons] at h
    rw [Opts.dflts, toList]
    rcases h with rfl | h
    · exact List.mem_cons_self ..
    · exact List.mem_cons_of_mem _ (dflts_given r a h)

theorem dflts_names : ∀ o : Opts, (toList o.dflts).map (·.1) = o.names.map some
  | .nil => rfl
  | .templ n t r => by simp [Opts.dflts, toList, Opts.names, dflts_names r]
  | .templD n t d r => by simp [Opts.dflts, toList, Opts.names, dflts_names r]
  | .dyn n r => by simp [Opts.dflts, toList, Opts.names, dflts_names r]
  | .dynD n s r => by simp [Opts.dflts, toList, Opts.names, dflts_names r]
  | .comp n r => by simp [Opts.dflts, toList, Opts.names, dflts_names r]

/-- in a default, the option `a` has exactly its own default -/
theorem dflts_lastGiven {o : Opts} (hnd : o.names.Nodup) {names : List Bs} (hn : argNames o.args 0 true (toList o.dflts) = .ok names)
    {a : DArg} (ha : a ∈ o.args) : lastGiven names (toList o.dflts) a.name = some (a.dflt.getD (.str [])) := by
  rw [lastGiven_given hn]
  obtain ⟨j, hj⟩ := List.getElem?_of_mem (dflts_given o a ha)
  have hkey : ∀ (i : Nat) (k : Bs), IsFor o.args (toList o.dflts) i k → o.names[i]? = some k := by
    rintro i k (⟨v, hv⟩ | ⟨v, b, hv, -⟩)
    · have : ((toList o.dflts).map (·.1))[i]? = some (some k) := by rw [List.getElem?_map, hv]; rfl
      rw [dflts_names, List.getElem?_map] at this
      cases hx : o.names[i]? with
      | none => rw [hx] at this; cases this
      | some x => rw [hx] at this; simpa using this
    · have : ((toList o.dflts).map (·.1))[i]? = some none := by rw [List.getElem?_map, hv]; rfl
      rw [dflts_names, List.getElem?_map] at this
      cases hx : o.names[i]? with
      | none => rw [hx] at this; cases this
      | some x => rw [hx] at this; simp at this
  refine ⟨j, some a.name, hj, Or.inl ⟨_, hj⟩, ?_⟩
  intro j' hlt hc
  have h1 := hkey _ _ hc
  have h2 := hkey j a.name (Or.inl ⟨_, hj⟩)
  have := (List.getElem?_inj (List.getElem?_eq_some_iff.mp h1).1 hnd (j := j)).mp (by rw [h1, h2])
  omega

mutual
/-- evaluating a default needs no further defaults -/
theorem dflt_noloop {types : Types} (ok : TypesOk types) {pat : Bool} : ∀ m : Meta, m.Ok → m.In types → ∀ f, vdepth m.dflt < f →
    eval types pat f m.type m.dflt (.str []) ≠ .error .loop
  | .mk t n d fl o, hok, hin, f, hf => by
    rw [Meta.Ok] at hok
    rw [Meta.In] at hin
    obtain ⟨⟨c, hc, hca⟩, hin2⟩ := hin
    obtain ⟨cs, e1, e2⟩ := (declared_iff ok).mp hc
    cases f with
    | zero => omega
    | succ f =>
      rw [Meta.dflt, vdepth] at hf
      apply eval_noloop_of
      intro ht n' args d' cs' names fs hv hcs hl hn ho
      rw [Meta.dflt] at hv
      cases hv
      rw [openFixed_none] at ho
      cases ho
      rw [show Meta.type (.mk t n d fl o) = t from rfl, e1] at hcs
      cases hcs
      rw [e2] at hl
      cases hl
      rw [hca] at hn ⊢
      have key := opts_noloop (types := types) ok (pat := pat) o hok.2.2.2 hin2 f (by omega)
      apply evalArgs_noloop
      · rintro a ha v hv fv (rfl | ⟨fs, hfs, -⟩)
        · rw [dflts_lastGiven hok.2.2.1 hn ha] at hv
          cases hv
          exact (key a ha).1
        · cases hfs
      · intro a ha v hv
        have := (key a ha).1
        rwa [hv] at this
      · intro fs hfs; cases hfs
theorem opts_noloop {types : Types} (ok : TypesOk types) {pat : Bool} : ∀ o : Opts, o.Ok → o.In types → ∀ f, adepth o.dflts < f →
    ∀ a ∈ o.args, eval types pat f a.type (a.dflt.getD (.str [])) (.str []) ≠ .error .loop ∧ True
  | .nil, _, _, _, _, a, ha => by cases ha
  | .templ n t r, hok, hin, f, hf, a, ha => by
    rw [Opts.dflts, adepth] at hf
    rw [Opts.args, List.mem_cons] at ha
    rcases ha with rfl | ha
    · exact ⟨str_noloop (by omega), trivial⟩
    · exact opts_noloop ok r hok.2 hin.2 f (by omega) a ha
  | .templD n t d r, hok, hin, f, hf, a, ha => by
    rw [Opts.dflts, adepth] at hf
    rw [Opts.args, List.mem_cons] at ha
    rcases ha with rfl | ha
    · exact ⟨dflt_noloop ok d hok.2.1 hin.2.1 f (by omega), trivial⟩
    · exact opts_noloop ok r hok.2.2.2 hin.2.2 f (by omega) a ha
  | .dyn n r, hok, hin, f, hf, a, ha => by
    rw [Opts.dflts, adepth] at hf
    rw [Opts.args, List.mem_cons] at ha
    rcases ha with rfl | ha
    · exact ⟨str_noloop (by omega), trivial⟩
    · exact opts_noloop ok r hok hin f (by omega) a ha
  | .dynD n s r, hok, hin, f, hf, a, ha => by
    rw [Opts.dflts, adepth] at hf
    rw [Opts.args, List.mem_cons] at ha
    rcases ha with rfl | ha
    · exact ⟨str_noloop (by omega), trivial⟩
    · exact opts_noloop ok r hok hin f (by omega) a ha
  | .comp n r, hok, hin, f, hf, a, ha => by
    rw [Opts.dflts, adepth] at hf
    rw [Opts.args, List.mem_cons] at ha
    rcases ha with rfl | ha
    · exact ⟨str_noloop (by omega), trivial⟩
    · exact opts_noloop ok r hok hin f (by omega) a ha
theorem str_noloop {types : Types} {pat : Bool} {f : Nat} {t : Bs} {x : Bs} {fixed : Val} (hf : 0 < f) :
    eval types pat f t (.str x) fixed ≠ .error .loop := by
  cases f with
  | zero => omega
  | succ f =>
    apply eval_noloop_of
    intro _ n args d cs names fs hv
    cases hv
end

/-- a bound for the depth of all defaults -/
theorem dflt_bound (types : Types) : ∃ D, ∀ t n c, Declared types t n c → ∀ a ∈ c.args, ∀ x, a.dflt = some x → vdepth x ≤ D := by
  have h1 : ∀ l : List DArg, ∃ D, ∀ a ∈ l, ∀ x, a.dflt = some x → vdepth x ≤ D := by
    intro l
    induction l with
    | nil => exact ⟨0, fun a ha => by cases ha⟩
    | cons a l ih =>
      obtain ⟨D, hD⟩ := ih
      refine ⟨D + vdepth (a.dflt.getD (.str [])), fun b hb x hx => ?_⟩
      rcases List.mem_cons.mp hb with rfl | hb
      · rw [hx]; simp
      · have := hD b hb x hx; omega
  have h2 : ∀ l : List DAlg, ∃ D, ∀ c ∈ l, ∀ a ∈ c.args, ∀ x, a.dflt = some x → vdepth x ≤ D := by
    intro l
    induction l with
    | nil => exact ⟨0, fun a ha => by cases ha⟩
    | cons c l ih =>
      obtain ⟨D, hD⟩ := ih
      obtain ⟨D', hD'⟩ := h1 c.args
      refine ⟨D + D', fun b hb a ha x hx => ?_⟩
      rcases List.mem_cons.mp hb with rfl | hb
      · have := hD' a ha x hx; omega
      · have := hD b hb a ha x hx; omega
  induction types with
  | nil => exact ⟨0, fun t n c ⟨cs, h, _⟩ => by cases h⟩
  | cons e types ih =>
    obtain ⟨D, hD⟩ := ih
    obtain ⟨D', hD'⟩ := h2 e.2
    refine ⟨D + D', fun t n c hc a ha x hx => ?_⟩
    rcases declared_cons.mp hc with ⟨-, h, -⟩ | hc
    · have := hD' c h a ha x hx; omega
    · have := hD t n c hc a ha x hx; omega

/-- every value is evaluated in bounded depth -/
theorem eval_noloop {types : Types} (ok : TypesOk types) {pat : Bool} {D : Nat}
    (hs : ∀ t n c, Declared types t n c → ∀ a ∈ c.args, ∀ x, a.dflt = some x → vdepth x ≤ D ∧
      ∀ f, vdepth x < f → eval types pat f a.type x (.str []) ≠ .error .loop) :
    ∀ (f : Nat) (t : Bs) (v fixed : Val), vdepth v + D < f → vdepth fixed + D < f → eval types pat f t v fixed ≠ .error .loop
  | 0, _, _, _, h, _ => by omega
  | f + 1, t, v, fixed, h, h' => by
    apply eval_noloop_of
    intro ht n args d cs names fs hv hc hl hn ho
    subst hv
    rw [vdepth] at h
    have hfs : ∀ fs', fs = some fs' → ∀ e ∈ fs', vdepth e.2 + D < f := by
      rintro fs' rfl e he
      unfold openFixed at ho
      split at ho
      · cases ho
      · cases fixed with
        | str x => simp only at ho; cases ho
        | inv fn fargs =>
          simp only at ho
          split at ho
          · cases ho
            rw [vdepth] at h'
            have := adepth_mem fargs e he
            omega
          · cases ho
    have hdecl := (declared_iff ok).mpr ⟨cs, hc, hl⟩
    apply evalArgs_noloop
    · intro a ha v hv fv hfv
      obtain ⟨e, he, rfl⟩ := lastGiven_mem hv
      have h1 := adepth_mem args e he
      apply eval_noloop ok hs f _ _ _ (by omega)
      rcases hfv with rfl | ⟨fs', h2, e', he', rfl⟩
      · simp only [vdepth]; omega
      · exact hfs fs' h2 e' he'
    · intro a ha x hx
      obtain ⟨h1, h2⟩ := hs _ _ _ hdecl a ha x hx
      exact h2 f (by omega)
    · intro fs' h2 a ha e he
      have := hfs fs' h2 e he
      exact eval_noloop ok hs f _ _ _ this this

theorem built_noloop {types : Types} (hb : Built types) (v fixed : Val) : ∃ N, ∀ pat f t, N ≤ f → eval types pat f t v fixed ≠ .error .loop := by
  obtain ⟨ok, horig, -⟩ := built_ok hb
  obtain ⟨D, hD⟩ := dflt_bound types
  refine ⟨vdepth v + vdepth fixed + D + 1, fun pat f t hf => ?_⟩
  apply eval_noloop ok (D := D) _ f t v fixed (by omega) (by omega)
  intro t n c hc a ha x hx
  refine ⟨hD t n c hc a ha x hx, fun f' hf' => ?_⟩
  obtain ⟨o, h1, h2, h3⟩ := horig t n c hc
  rw [h1] at ha
  -- the depth of this default alone bounds its evaluation
  have key : ∀ (o : Opts), o.Ok → o.In types → ∀ a ∈ o.args, ∀ x, a.dflt = some x → vdepth x < f' →
      eval types pat f' a.type x (.str []) ≠ .error .loop := by
    intro o
    induction o using Opts.rec (motive_1 := fun _ => True) with
    | mk => trivial
    | nil => intro _ _ a ha; cases ha
    | templ n t r _ ih =>
      intro h2 h3 a ha x hx
      rw [Opts.args, List.mem_cons] at ha
      rcases ha with rfl | ha
      · cases hx
      · exact ih h2.2 h3.2 a ha x hx
    | templD n t d r _ _ ih =>
      intro h2 h3 a ha x hx
      rw [Opts.args, List.mem_cons] at ha
      rcases ha with rfl | ha
      · cases hx
        exact fun hlt => dflt_noloop ok d h2.2.1 h3.2.1 f' hlt
      · exact ih h2.2.2.2 h3.2.2 a ha x hx
    | dyn n r ih =>
      intro h2 h3 a ha x hx
      rw [Opts.args, List.mem_cons] at ha
      rcases ha with rfl | ha
      · cases hx
      · exact ih h2 h3 a ha x hx
    | dynD n s r ih =>
      intro h2 h3 a ha x hx
      rw [Opts.args, List.mem_cons] at ha
      rcases ha with rfl | ha
      · cases hx
        exact fun hlt => str_noloop (by omega)
      · exact ih h2 h3 a ha x hx
    | comp n r ih =>
      intro h2 h3 a ha x hx
      rw [Opts.args, List.mem_cons] at ha
      rcases ha with rfl | ha
      · cases hx
      · exact ih h2 h3 a ha x hx
  exact key o h2 h3 a ha x hx hf'

end Opt
end Tdc
