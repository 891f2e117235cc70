import Verif.Lemmas.OptionEval

namespace Tdc
namespace Opt

open Ast

/-! ## step 2 -/

/-- one round of the loop per option -/
inductive Steps (ev : Bs → Val → Val → Out OptVal) (g : Bs → Option Val) : List DArg → List Val → List OptVal → Prop
  | nil : Steps ev g [] [] []
  | cons (a : DArg) (sig : List DArg) (v : Val) (vals : List Val) (r : OptVal) (rs : List OptVal) :
    v = (g a.name).getD (a.dflt.getD (.str [])) → NonEmpty v → ev a.type v (.str []) = .ok r →
    (a.isStatic = true → ∃ n m s f, r = .alg n m s f) → Steps ev g sig vals rs → Steps ev g (a :: sig) (v :: vals) (r :: rs)

theorem Steps.len {ev g sig vals rs} (h : Steps ev g sig vals rs) : vals.length = sig.length ∧ rs.length = sig.length := by
  induction h with
  | nil => exact ⟨rfl, rfl⟩
  | cons _ _ _ _ _ _ _ _ _ _ _ ih => exact ⟨by simp [ih.1], by simp [ih.2]⟩

theorem Steps.at {ev g sig vals rs} (h : Steps ev g sig vals rs) :
    ∀ (i : Nat) (a : DArg) (v : Val) (r : OptVal), sig[i]? = some a → vals[i]? = some v → rs[i]? = some r →
      v = (g a.name).getD (a.dflt.getD (.str [])) ∧ NonEmpty v ∧ ev a.type v (.str []) = .ok r ∧
      (a.isStatic = true → ∃ n m s f, r = .alg n m s f) := by
  induction h with
  | nil => intro i a v r h; simp at h
  | cons a sig v vals r rs h1 h2 h3 h4 _ ih =>
    intro i a' v' r' ha hv hr
    cases i with
    | zero =>
      simp only [List.getElem?_cons_zero, Option.some.injEq] at ha hv hr
      subst ha; subst hv; subst hr
      exact ⟨h1, h2, h3, h4⟩
    | succ i => exact ih i a' v' r' (by simpa using ha) (by simpa using hv) (by simpa using hr)

theorem Steps.of {ev : Bs → Val → Val → Out OptVal} {g : Bs → Option Val} : ∀ (sig : List DArg) (vals : List Val) (rs : List OptVal),
    vals.length = sig.length → rs.length = sig.length →
    (∀ (i : Nat) (a : DArg) (v : Val) (r : OptVal), sig[i]? = some a → vals[i]? = some v → rs[i]? = some r →
      v = (g a.name).getD (a.dflt.getD (.str [])) ∧ NonEmpty v ∧ ev a.type v (.str []) = .ok r ∧
      (a.isStatic = true → ∃ n m s f, r = .alg n m s f)) → Steps ev g sig vals rs
  | [], [], [], _, _, _ => .nil
  | [], v :: vals, rs, h, _, _ => by simp at h
  | [], [], r :: rs, _, h, _ => by simp at h
  | a :: sig, [], rs, h, _, _ => by simp at h
  | a :: sig, v :: vals, [], _, h, _ => by simp at h
  | a :: sig, v :: vals, r :: rs, h1, h2, h => by
    obtain ⟨e1, e2, e3, e4⟩ := h 0 a v r rfl rfl rfl
    refine .cons a sig v vals r rs e1 e2 e3 e4 (Steps.of sig vals rs (by simpa using h1) (by simpa using h2) ?_)
    intro i a' v' r' ha hv hr
    exact h (i + 1) a' v' r' (by simpa using ha) (by simpa using hv) (by simpa using hr)

/-- the static selection as a list -/
def statList : List DArg → List OptVal → List (Bs × Pat)
  | a :: sig, r :: rs =>
    match a.isStatic, r with
    | true, .alg _ _ s _ => (a.name, s) :: statList sig rs
    | _, _ => statList sig rs
  | _, _ => []

theorem statList_cons_dyn {a : DArg} (h : a.isStatic = false) (sig : List DArg) (r : OptVal) (rs : List OptVal) :
    statList (a :: sig) (r :: rs) = statList sig rs := by
  simp [statList, h]

theorem statList_cons_stat {a : DArg} (h : a.isStatic = true) (sig : List DArg) (n : Bs) (m) (s) (f) (rs : List OptVal) :
    statList (a :: sig) (.alg n m s f :: rs) = (a.name, s) :: statList sig rs := by
  simp [statList, h]

theorem ofList_statList : ∀ (sig : List DArg) (rs : List OptVal), PArgs.ofList (statList sig rs) = staticSel sig rs
  | [], rs => by cases rs <;> rfl
  | a :: sig, [] => rfl
  | a :: sig, r :: rs => by
    have ih := ofList_statList sig rs
    cases h : a.isStatic with
    | false => rw [statList_cons_dyn h, ih]; simp [staticSel, h]
    | true =>
      cases r with
      | str x => simp [statList, staticSel, ih]
      | alg n m s f => rw [statList_cons_stat h, PArgs.ofList, ih]; simp [staticSel, h]

theorem mapSet_fresh {m : List (Bs × OptVal)} {k : Bs} (v : OptVal) (h : k ∉ m.map (·.1)) : mapSet m k v = m ++ [(k, v)] := by
  unfold mapSet
  rw [if_neg]
  intro hc
  rw [List.any_eq_true] at hc
  obtain ⟨e, he, h2⟩ := hc
  simp only [decide_eq_true_eq] at h2
  exact h (by rw [← h2]; exact List.mem_map_of_mem he)

/-- results of `ev` on non-empty values have a name -/
def Named (ev : Bs → Val → Val → Out OptVal) : Prop :=
  ∀ t v f n m s fl, NonEmpty v → ev t v f = .ok (.alg n m s fl) → s.name ≠ []

theorem evalArgs_iff {ev : Bs → Val → Val → Out OptVal} (hev : Named ev) (names : List Bs) (l : List (Option Bs × Val)) :
    ∀ (sig : List DArg) (stat : List (Bs × Pat)) (dyn : List (Bs × OptVal)) (out : _),
    (dyn.map (·.1) ++ sig.map (·.name)).Nodup →
    (evalArgs ev false names l sig none stat dyn = .ok out ↔ ∃ vals rs, Steps ev (lastGiven names l) sig vals rs ∧
      out = (none, stat ++ statList sig rs, dyn ++ (sig.map (·.name)).zip rs))
  | [], stat, dyn, out, hnd => by
    rw [evalArgs]
    constructor
    · intro h; cases h; exact ⟨[], [], .nil, by simp [statList]⟩
    · rintro ⟨vals, rs, h, rfl⟩
      cases h
      simp [statList]
  | a :: sig, stat, dyn, out, hnd => by
    have hfresh : a.name ∉ dyn.map (·.1) := by
      intro hc
      rw [List.nodup_append'] at hnd
      exact hnd.2.2 hc (by simp)
    have hnd' : ∀ r : OptVal, ((dyn ++ [(a.name, r)]).map (·.1) ++ sig.map (·.name)).Nodup := by
      intro r
      simpa using hnd
    rw [evalArgs]
    simp only [Bool.false_and, Bool.false_eq_true, if_false, pickValue, Except.bind]
    by_cases hem : isEmpty ((lastGiven names l a.name).getD (a.dflt.getD (.str []))) = true
    · rw [if_pos hem]
      constructor
      · intro h; cases h
      · rintro ⟨vals, rs, h, rfl⟩
        cases h with
        | cons _ _ v vals r rs h1 h2 h3 h4 h5 =>
          rw [← h1] at hem
          rw [isEmpty_iff.mpr h2] at hem
          cases hem
    · rw [if_neg hem]
      have hem' := isEmpty_iff.mp (by simpa using hem : isEmpty _ = false)
      constructor
      · intro h
        cases hr : ev a.type ((lastGiven names l a.name).getD (a.dflt.getD (.str []))) (.str []) with
        | error e => rw [hr] at h; cases h
        | ok r =>
          rw [hr] at h
          simp only [addStatic] at h
          cases hs : a.isStatic with
          | false =>
            rw [hs] at h
            simp only [Bool.false_eq_true, if_false] at h
            rw [mapSet_fresh r hfresh] at h
            obtain ⟨vals, rs, h1, rfl⟩ := (evalArgs_iff hev names l sig _ _ out (hnd' r)).mp h
            refine ⟨_ :: vals, r :: rs, .cons a sig _ vals r rs rfl hem' hr (by simp [hs]) h1, ?_⟩
            rw [statList_cons_dyn hs]
            simp
          | true =>
            rw [hs] at h
            simp only [if_true] at h
            cases r with
            | str x => cases h
            | alg n m s f =>
              have hsn := hev _ _ _ _ _ _ _ hem' hr
              simp only [if_neg hsn] at h
              rw [mapSet_fresh _ hfresh] at h
              obtain ⟨vals, rs, h1, rfl⟩ := (evalArgs_iff hev names l sig _ _ out (hnd' _)).mp h
              refine ⟨_ :: vals, _ :: rs, .cons a sig _ vals _ rs rfl hem' hr (fun _ => ⟨n, m, s, f, rfl⟩) h1, ?_⟩
              rw [statList_cons_stat hs]
              simp
      · rintro ⟨vals, rs, h, rfl⟩
        cases h with
        | cons _ _ v vals r rs h1 h2 h3 h4 h5 =>
          rw [← h1, h3]
          simp only [addStatic]
          cases hs : a.isStatic with
          | false =>
            simp only [Bool.false_eq_true, if_false]
            rw [mapSet_fresh r hfresh]
            rw [(evalArgs_iff hev names l sig _ _ _ (hnd' r)).mpr ⟨vals, rs, h5, rfl⟩]
            rw [statList_cons_dyn hs]
            simp
          | true =>
            obtain ⟨n, m, s, f, rfl⟩ := h4 hs
            have hsn := hev _ _ _ _ _ _ _ h2 h3
            simp only [if_true, if_neg hsn]
            rw [mapSet_fresh _ hfresh]
            rw [(evalArgs_iff hev names l sig _ _ _ (hnd' _)).mpr ⟨vals, rs, h5, rfl⟩]
            rw [statList_cons_stat hs]
            simp

/-! ## `eval` -/

theorem eval_succ (types : Types) (pattern : Bool) (fuel : Nat) (type : Bs) (v fixed : Val) :
    eval types pattern (fuel + 1) type v fixed =
    if type = stringT then
      match v with
      | .str x => .ok (.str x)
      | .inv _ _ => .error .throw
    else
      (openFixed fixed v).bind fun fs =>
      match candidates types type, v with
      | none, _ => .error .abort
      | some _, .str _ => .error .abort
      | some cs, .inv n args =>
        match lookupAlg cs n with
        | none => .error .throw
        | some sig =>
          (argNames sig.args 0 true (toList args)).bind fun names =>
          (evalArgs (eval types pattern fuel) pattern names (toList args) sig.args fs [] []).bind fun r =>
          if fixedUsed r.1 then .ok (.alg sig.name r.2.2 (.mk sig.name (PArgs.ofList r.2.1)) sig.flags) else .error .abort := rfl

/-- the parts of a successful evaluation of an invocation -/
theorem eval_ok {types : Types} {pat : Bool} {fuel : Nat} {type : Bs} {v fixed : Val} {r : OptVal}
    (h : eval types pat (fuel + 1) type v fixed = .ok r) (ht : type ≠ stringT) :
    ∃ fs cs n args d names out, openFixed fixed v = .ok fs ∧ candidates types type = some cs ∧ v = .inv n args ∧ lookupAlg cs n = some d ∧
      argNames d.args 0 true (toList args) = .ok names ∧
      evalArgs (eval types pat fuel) pat names (toList args) d.args fs [] [] = .ok out ∧ fixedUsed out.1 = true ∧
      r = .alg d.name out.2.2 (.mk d.name (PArgs.ofList out.2.1)) d.flags := by
  rw [eval_succ, if_neg ht] at h
  obtain ⟨fs, h1, h⟩ := bindOk h
  cases hc : candidates types type with
  | none => rw [hc] at h; cases h
  | some cs =>
    cases v with
    | str x => rw [hc] at h; cases h
    | inv n args =>
      rw [hc] at h
      cases hl : lookupAlg cs n with
      | none => simp only [hl] at h; cases h
      | some d =>
        simp only [hl] at h
        obtain ⟨names, h2, h⟩ := bindOk h
        obtain ⟨out, h3, h⟩ := bindOk h
        by_cases hu : fixedUsed out.1 = true
        · rw [if_pos hu] at h
          cases h
          exact ⟨fs, cs, n, args, d, names, out, h1, rfl, rfl, hl, h2, h3, hu, rfl⟩
        · rw [if_neg hu] at h; cases h

theorem eval_named (types : Types) (pat : Bool) (fuel : Nat) : Named (eval types pat fuel) := by
  intro t v f n m s fl hv h
  cases fuel with
  | zero => cases h
  | succ fuel =>
    by_cases ht : t = stringT
    · rw [eval_succ, if_pos ht] at h
      cases v with
      | str x => cases h
      | inv n a => cases h
    · obtain ⟨fs, cs, n', args, d, names, out, -, -, rfl, h4, -, -, -, h8⟩ := eval_ok h ht
      cases h8
      have h1 := (lookupAlg_name h4).1
      intro hc
      rw [Pat.name] at hc
      rw [h1] at hc
      exact hv.2 args (by rw [hc])

theorem openFixed_none (v : Val) : openFixed (.str []) v = .ok none := by
  simp [openFixed, isEmpty]

/-- soundness -/
theorem eval_means {types : Types} (ok : TypesOk types) : ∀ (fuel : Nat) (type : Bs) (v : Val) (r : OptVal),
    eval types false fuel type v (.str []) = .ok r → Means types type v r
  | 0, _, _, _, h => by cases h
  | fuel + 1, type, v, r, h => by
    by_cases ht : type = stringT
    · rw [eval_succ, if_pos ht] at h
      cases v with
      | str x => cases h; rw [ht]; exact .str x
      | inv n a => cases h
    · obtain ⟨fs, cs, n, args, d, names, out, h1, h2, rfl, h4, h5, h6, -, rfl⟩ := eval_ok h ht
      rw [openFixed_none] at h1
      cases h1
      have hmem := candidates_mem h2
      have hd := lookupAlg_name h4
      obtain ⟨vals, rs, hs, rfl⟩ := (evalArgs_iff (eval_named types false fuel) names (toList args) d.args [] [] out
        (by simpa using ok.options _ hmem d hd.2)).mp h6
      obtain ⟨l1, l2⟩ := hs.len
      obtain ⟨w, -, -⟩ := argNames_ok h5
      have hch : ∀ (i : Nat) (a : DArg) (v : Val), d.args[i]? = some a → vals[i]? = some v → Chosen d.args (toList args) a v ∧ NonEmpty v := by
        intro i a v ha hv
        have hi : i < rs.length := by rw [l2]; exact (List.getElem?_eq_some_iff.mp ha).1
        obtain ⟨e1, e2, -, -⟩ := hs.at i a v rs[i] ha hv (List.getElem?_eq_getElem hi)
        refine ⟨?_, e2⟩
        cases hg : lastGiven names (toList args) a.name with
        | some x =>
          rw [hg] at e1
          rw [e1]
          exact Or.inl ((lastGiven_given h5).mp hg)
        | none =>
          rw [hg] at e1
          refine Or.inr ⟨(lastGiven_missing h5).mp hg, ?_⟩
          cases hdf : a.dflt with
          | none => rw [hdf] at e1; exact absurd e1 e2.1
          | some x => rw [hdf] at e1; rw [e1]; rfl
      have key := Means.alg (types := types) type n (toList args) d vals rs ht ((declared_iff ok).mpr ⟨cs, h2, h4⟩) w l1 l2 hch
        (fun i a v r ha hv hr => eval_means ok fuel _ _ _ (hs.at i a v r ha hv hr).2.2.1)
        (fun i a r ha hr hst => by
          have hi : i < vals.length := by rw [l1]; exact (List.getElem?_eq_some_iff.mp ha).1
          exact (hs.at i a vals[i] r ha (List.getElem?_eq_getElem hi) hr).2.2.2 hst)
      rw [mkArgs_toList] at key
      simp only [List.nil_append]
      rw [ofList_statList, hd.1]
      exact key

/-! ### more fuel never hurts -/

theorem evalArgs_mono {ev ev' : Bs → Val → Val → Out OptVal} (hev : ∀ t v f r, ev t v f = .ok r → ev' t v f = .ok r) {pat : Bool}
    {names : List Bs} {l : List (Option Bs × Val)} : ∀ (sig : List DArg) (fixed) (stat : List (Bs × Pat)) (dyn : List (Bs × OptVal)) (out : _),
    evalArgs ev pat names l sig fixed stat dyn = .ok out → evalArgs ev' pat names l sig fixed stat dyn = .ok out
  | [], fixed, stat, dyn, out, h => by rw [evalArgs] at h ⊢; exact h
  | a :: sig, fixed, stat, dyn, out, h => by
    rw [evalArgs] at h ⊢
    by_cases hp : (pat && !a.isStatic) = true
    · rw [if_pos hp] at h ⊢
      exact evalArgs_mono hev sig _ _ _ _ h
    · rw [if_neg hp] at h ⊢
      obtain ⟨p, h1, h⟩ := bindOk h
      rw [h1]
      show (if isEmpty p.1 = true then _ else _) = _
      by_cases he : isEmpty p.1 = true
      · rw [if_pos he] at h; cases h
      · rw [if_neg he] at h ⊢
        obtain ⟨r, h2, h⟩ := bindOk h
        obtain ⟨st, h3, h⟩ := bindOk h
        rw [hev _ _ _ _ h2]
        show (addStatic a r stat).bind _ = _
        rw [h3]
        exact evalArgs_mono hev sig _ _ _ _ h

theorem eval_mono {types : Types} {pat : Bool} : ∀ (fuel fuel' : Nat) (type : Bs) (v fixed : Val) (r : OptVal), fuel ≤ fuel' →
    eval types pat fuel type v fixed = .ok r → eval types pat fuel' type v fixed = .ok r
  | 0, _, _, _, _, _, _, h => by cases h
  | fuel + 1, 0, _, _, _, _, hle, _ => by omega
  | fuel + 1, fuel' + 1, type, v, fixed, r, hle, h => by
    by_cases ht : type = stringT
    · rw [eval_succ, if_pos ht] at h ⊢; exact h
    · obtain ⟨fs, cs, n, args, d, names, out, h1, h2, rfl, h4, h5, h6, h7, rfl⟩ := eval_ok h ht
      rw [eval_succ, if_neg ht, h1]
      show (match candidates types type, Val.inv n args with | none, _ => _ | some _, .str _ => _ | some cs, .inv n args => _) = _
      rw [h2]
      simp only [h4, h5, Except.bind]
      rw [evalArgs_mono (fun t v f r => eval_mono fuel fuel' t v f r (by omega)) _ _ _ _ _ h6]
      simp only [if_pos h7]

/-- completeness -/
theorem means_eval {types : Types} (ok : TypesOk types) {type : Bs} {v : Val} {r : OptVal} (h : Means types type v r) :
    ∃ fuel, eval types false fuel type v (.str []) = .ok r := by
  induction h with
  | str x => exact ⟨1, by rw [eval_succ, if_pos rfl]⟩
  | alg type name args d vals rs ht hd w l1 l2 hch hm hst ih =>
    obtain ⟨cs, hc, hl⟩ := (declared_iff ok).mp hd
    obtain ⟨names, hn⟩ := argNames_wf w
    -- a common bound for the options
    have hb : ∀ k, k ≤ d.args.length → ∃ F, ∀ (i : Nat) (a : DArg) (v : Val) (r : OptVal), i < k → d.args[i]? = some a → vals[i]? = some v →
        rs[i]? = some r → eval types false F a.type v (.str []) = .ok r := by
      intro k
      induction k with
      | zero => exact fun _ => ⟨0, fun i _ _ _ hi => by omega⟩
      | succ k ihk =>
        intro hk
        obtain ⟨F, hF⟩ := ihk (by omega)
        obtain ⟨F', hF'⟩ := ih k d.args[k] vals[k] rs[k] (List.getElem?_eq_getElem _) (List.getElem?_eq_getElem _) (List.getElem?_eq_getElem _)
        refine ⟨max F F', fun i a v r hi ha hv hr => ?_⟩
        by_cases hik : i = k
        · subst hik
          rw [List.getElem?_eq_getElem (by omega)] at ha hv hr
          cases ha; cases hv; cases hr
          exact eval_mono F' _ _ _ _ _ (Nat.le_max_right ..) hF'
        · exact eval_mono F _ _ _ _ _ (Nat.le_max_left ..) (hF i a v r (by omega) ha hv hr)
    obtain ⟨F, hF⟩ := hb d.args.length (Nat.le_refl _)
    have hsteps : Steps (eval types false F) (lastGiven names args) d.args vals rs := by
      refine Steps.of _ _ _ l1 l2 ?_
      intro i a v r ha hv hr
      obtain ⟨hc1, hc2⟩ := hch i a v ha hv
      refine ⟨?_, hc2, hF i a v r (List.getElem?_eq_some_iff.mp ha).1 ha hv hr, fun hs => hst i a r ha hr hs⟩
      rcases hc1 with hg | ⟨hg, hdf⟩
      · rw [(lastGiven_given hn).mpr hg]; rfl
      · rw [(lastGiven_missing hn).mpr hg, hdf]; rfl
    refine ⟨F + 1, ?_⟩
    rw [eval_succ, if_neg ht, openFixed_none]
    show (match candidates types type, Val.inv name (mkArgs args) with | none, _ => _ | some _, .str _ => _ | some cs, .inv n args => _) = _
    rw [hc]
    simp only [hl, toList_mkArgs, hn, Except.bind]
    rw [(evalArgs_iff (eval_named types false F) names args d.args [] [] _
      (by simpa using ok.options _ (candidates_mem hc) d (lookupAlg_name hl).2)).mpr ⟨vals, rs, hsteps, rfl⟩]
    simp only [List.nil_append, fixedUsed, if_true]
    rw [ofList_statList, (lookupAlg_name hl).1]

/-- what a value means is unique -/
theorem means_unique {types : Types} (ok : TypesOk types) {type : Bs} {v : Val} {r r' : OptVal} (h : Means types type v r)
    (h' : Means types type v r') : r = r' := by
  obtain ⟨f, hf⟩ := means_eval ok h
  obtain ⟨f', hf'⟩ := means_eval ok h'
  have h1 := eval_mono f (max f f') _ _ _ _ (Nat.le_max_left ..) hf
  rw [eval_mono f' (max f f') _ _ _ _ (Nat.le_max_right ..) hf'] at h1
  cases h1
  rfl

end Opt
end Tdc
