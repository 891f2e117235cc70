import Verif.Spec.OptionSemantics
import Mathlib.Tactic.ByContra
import Mathlib.Data.List.Nodup
import Mathlib.Data.List.Induction

namespace Tdc
namespace Opt

open Ast

theorem toList_mkArgs : ∀ l : List (Option Bs × Val), toList (mkArgs l) = l
  | [] => rfl
  | (k, v) :: t => by rw [mkArgs, toList, toList_mkArgs t]

theorem mkArgs_toList : ∀ a : Args, mkArgs (toList a) = a
  | .nil => rfl
  | .cons k v r => by rw [toList, mkArgs, mkArgs_toList r]

theorem bindOk {α β : Type} {x : Out α} {f : α → Out β} {b : β} (h : x.bind f = .ok b) : ∃ a, x = .ok a ∧ f a = .ok b := by
  cases x with
  | error e => cases h
  | ok a => exact ⟨a, rfl, h⟩

theorem isEmpty_iff {v : Val} : isEmpty v = false ↔ NonEmpty v := by
  unfold NonEmpty
  cases v with
  | str x => simp [isEmpty]
  | inv n a => cases n <;> simp [isEmpty]

/-! ## lookup -/

theorem lookupAlg_snoc (cs : List DAlg) (c : DAlg) (n : Bs) :
    lookupAlg (cs ++ [c]) n = if c.name = n then some c else lookupAlg cs n := by
  unfold lookupAlg
  rw [List.foldl_append]
  rfl

theorem lookupAlg_name {cs : List DAlg} {n : Bs} {d : DAlg} (h : lookupAlg cs n = some d) : d.name = n ∧ d ∈ cs := by
  induction cs using List.reverseRecOn with
  | nil => cases h
  | append_singleton cs c ih =>
    rw [lookupAlg_snoc] at h
    split at h
    · next hc => cases h; exact ⟨hc, by simp⟩
    · obtain ⟨h1, h2⟩ := ih h
      exact ⟨h1, List.mem_append_left _ h2⟩

theorem lookupAlg_mem {cs : List DAlg} (hn : (cs.map (·.name)).Nodup) {d : DAlg} (h : d ∈ cs) : lookupAlg cs d.name = some d := by
  induction cs using List.reverseRecOn with
  | nil => cases h
  | append_singleton cs c ih =>
    rw [List.map_append, List.nodup_append'] at hn
    rw [lookupAlg_snoc]
    rcases List.mem_append.mp h with h | h
    · rw [if_neg, ih hn.1 h]
      intro e
      exact hn.2.2 (List.mem_map_of_mem h) (by simp [e])
    · rw [List.mem_singleton.mp h, if_pos rfl]

theorem candidates_mem {types : Types} {t : Bs} {cs : List DAlg} (h : candidates types t = some cs) : (t, cs) ∈ types := by
  unfold candidates at h
  cases e : types.find? (fun e => e.1 = t) with
  | none => rw [e] at h; cases h
  | some x =>
    rw [e] at h
    cases h
    have h1 := List.find?_some e
    have h2 := List.mem_of_find?_eq_some e
    simp only [decide_eq_true_eq] at h1
    rw [← h1]
    exact h2

theorem candidates_of_mem {types : Types} (hn : (types.map (·.1)).Nodup) {t : Bs} {cs : List DAlg} (h : (t, cs) ∈ types) :
    candidates types t = some cs := by
  unfold candidates
  induction types with
  | nil => cases h
  | cons x xs ih =>
    rw [List.map_cons, List.nodup_cons] at hn
    rw [List.find?_cons]
    by_cases hx : x.1 = t
    · rcases List.mem_cons.mp h with h | h
      · rw [← h]; simp
      · exact absurd (List.mem_map_of_mem (f := (·.1)) h) (by rw [← hx] at *; exact hn.1)
    · have hx' : (decide (x.1 = t)) = false := by simp [hx]
      rw [hx']
      rcases List.mem_cons.mp h with h | h
      · rw [← h] at hx; exact absurd rfl hx
      · exact ih hn.2 h

theorem declared_iff {types : Types} (ok : TypesOk types) {t n : Bs} {d : DAlg} :
    Declared types t n d ↔ ∃ cs, candidates types t = some cs ∧ lookupAlg cs n = some d := by
  constructor
  · rintro ⟨cs, h1, h2, rfl⟩
    exact ⟨cs, candidates_of_mem ok.keys h1, lookupAlg_mem (ok.names _ h1) h2⟩
  · rintro ⟨cs, h1, h2⟩
    obtain ⟨h3, h4⟩ := lookupAlg_name h2
    exact ⟨cs, candidates_mem h1, h4, h3⟩

/-! ## step 1 -/

theorem defined_iff {sig : List DArg} {k : Bs} : defined sig k = true ↔ ∃ a ∈ sig, a.name = k := by
  simp [defined]

/-- the keyword arguments -/
theorem argNames_kw (sig : List DArg) : ∀ (l : List (Option Bs × Val)) (i : Nat) (names : List Bs),
    argNames sig i false l = .ok names ↔ (∀ e ∈ l, ∃ k, e.1 = some k ∧ defined sig k = true) ∧ names = l.map fun e => e.1.getD []
  | [], i, names => by
    rw [argNames]
    constructor
    · intro h; cases h; exact ⟨fun e he => (by cases he), rfl⟩
    · rintro ⟨h, rfl⟩; rfl
  | (none, v) :: rest, i, names => by
    rw [argNames]
    constructor
    · intro h; cases h
    · rintro ⟨h, -⟩
      obtain ⟨k, hk, -⟩ := h _ (List.mem_cons_self ..)
      cases hk
  | (some k, v) :: rest, i, names => by
    rw [argNames]
    have ih := argNames_kw sig rest i
    by_cases hd : defined sig k = true
    · rw [if_pos hd]
      constructor
      · intro h
        obtain ⟨r, h1, h2⟩ := bindOk h
        cases h2
        obtain ⟨h3, rfl⟩ := (ih r).mp h1
        refine ⟨fun e he => ?_, rfl⟩
        rcases List.mem_cons.mp he with rfl | he
        · exact ⟨k, rfl, hd⟩
        · exact h3 e he
      · rintro ⟨h, rfl⟩
        rw [(ih _).mpr ⟨fun e he => h e (List.mem_cons_of_mem _ he), rfl⟩]
        rfl
    · rw [if_neg hd]
      constructor
      · intro h; cases h
      · rintro ⟨h, -⟩
        obtain ⟨k', hk, h2⟩ := h _ (List.mem_cons_self ..)
        cases hk
        exact absurd h2 hd

/-- what `argNames` delivers when it succeeds -/
theorem argNames_iff (sig : List DArg) : ∀ (l : List (Option Bs × Val)) (i : Nat) (names : List Bs),
    argNames sig i true l = .ok names ↔ names.length = l.length ∧
      (∀ (a b : Nat) (v : Val), a < b → l[b]? = some (none, v) → ∃ w, l[a]? = some (none, w)) ∧
      (∀ (j : Nat) (v : Val), l[j]? = some (none, v) → ∃ a, sig[i + j]? = some a ∧ names[j]? = some a.name) ∧
      (∀ (j : Nat) (k : Bs) (v : Val), l[j]? = some (some k, v) → defined sig k = true ∧ names[j]? = some k)
  | [], i, names => by
    rw [argNames]
    constructor
    · intro h; cases h; simp
    · rintro ⟨h, -⟩
      rw [List.length_nil, List.length_eq_zero_iff] at h
      rw [h]
  | (none, v) :: rest, i, names => by
    rw [argNames]
    have ih := argNames_iff sig rest (i + 1)
    simp only [if_pos]
    constructor
    · intro h
      cases hs : sig[i]? with
      | none => rw [hs] at h; cases h
      | some a =>
        rw [hs] at h
        simp only at h
        by_cases hd : defined sig a.name = true
        · rw [if_pos hd] at h
          obtain ⟨r, h1, h2⟩ := bindOk h
          cases h2
          obtain ⟨p1, p2, p3, p4⟩ := (ih r).mp h1
          refine ⟨by simp [p1], ?_, ?_, ?_⟩
          · intro a' b v' hab hb
            cases b with
            | zero => omega
            | succ b =>
              cases a' with
              | zero => exact ⟨v, rfl⟩
              | succ a' => exact p2 a' b v' (by omega) (by simpa using hb)
          · intro j v' hj
            cases j with
            | zero => exact ⟨a, hs, rfl⟩
            | succ j =>
              obtain ⟨x, h5, h6⟩ := p3 j v' (by simpa using hj)
              exact ⟨x, by rw [← h5]; congr 1; omega, by simpa using h6⟩
          · intro j k v' hj
            cases j with
            | zero => simp at hj
            | succ j => simpa using p4 j k v' (by simpa using hj)
        · rw [if_neg hd] at h; cases h
    · rintro ⟨p1, p2, p3, p4⟩
      obtain ⟨a, hs, hn⟩ := p3 0 v rfl
      rw [Nat.add_zero] at hs
      rw [hs]
      have hd : defined sig a.name = true := defined_iff.mpr ⟨a, List.mem_of_getElem? hs, rfl⟩
      simp only
      rw [if_pos hd]
      cases names with
      | nil => simp at p1
      | cons m r =>
        simp only [List.getElem?_cons_zero, Option.some.injEq] at hn
        subst hn
        have : argNames sig (i + 1) true rest = .ok r := by
          rw [ih]
          refine ⟨by simpa using p1, ?_, ?_, ?_⟩
          · intro a' b v' hab hb
            obtain ⟨w, hw⟩ := p2 (a' + 1) (b + 1) v' (by omega) (by simpa using hb)
            exact ⟨w, by simpa using hw⟩
          · intro j v' hj
            obtain ⟨x, h5, h6⟩ := p3 (j + 1) v' (by simpa using hj)
            exact ⟨x, by rw [← h5]; congr 1; omega, by simpa using h6⟩
          · intro j k v' hj
            simpa using p4 (j + 1) k v' (by simpa using hj)
        rw [this]
        rfl
  | (some k, v) :: rest, i, names => by
    rw [argNames]
    by_cases hd : defined sig k = true
    · rw [if_pos hd]
      constructor
      · intro h
        obtain ⟨r, h1, h2⟩ := bindOk h
        cases h2
        obtain ⟨h3, rfl⟩ := (argNames_kw sig rest i r).mp h1
        refine ⟨by simp, ?_, ?_, ?_⟩
        · intro a b v' hab hb
          cases b with
          | zero => omega
          | succ b =>
            obtain ⟨k', hk, -⟩ := h3 _ (List.mem_of_getElem? (by simpa using hb))
            cases hk
        · intro j v' hj
          cases j with
          | zero => simp at hj
          | succ j =>
            obtain ⟨k', hk, -⟩ := h3 _ (List.mem_of_getElem? (by simpa using hj))
            cases hk
        · intro j k' v' hj
          cases j with
          | zero =>
            simp only [List.getElem?_cons_zero, Option.some.injEq, Prod.mk.injEq] at hj
            rw [← hj.1]
            exact ⟨hd, rfl⟩
          | succ j =>
            have hj' : rest[j]? = some (some k', v') := by simpa using hj
            obtain ⟨k2, hk, h4⟩ := h3 _ (List.mem_of_getElem? hj')
            cases hk
            exact ⟨h4, by simp [hj']⟩
      · rintro ⟨p1, p2, p3, p4⟩
        cases names with
        | nil => simp at p1
        | cons m r =>
          have := (p4 0 k v rfl).2
          simp only [List.getElem?_cons_zero, Option.some.injEq] at this
          subst this
          have h5 : argNames sig i false rest = .ok r := by
            rw [argNames_kw]
            have hall : ∀ e ∈ rest, ∃ k, e.1 = some k ∧ defined sig k = true := by
              intro e he
              obtain ⟨j, hj⟩ := List.getElem?_of_mem he
              obtain ⟨ek, ev⟩ := e
              cases ek with
              | none =>
                obtain ⟨w, hw⟩ := p2 0 (j + 1) ev (by omega) (by simpa using hj)
                simp at hw
              | some k' => exact ⟨k', rfl, (p4 (j + 1) k' ev (by simpa using hj)).1⟩
            refine ⟨hall, ?_⟩
            apply List.ext_getElem?
            intro j
            rw [List.getElem?_map]
            cases hj : rest[j]? with
            | none =>
              rw [Option.map_none, List.getElem?_eq_none_iff]
              rw [List.getElem?_eq_none_iff] at hj
              simp only [List.length_cons] at p1
              omega
            | some e =>
              obtain ⟨k', hk, -⟩ := hall e (List.mem_of_getElem? hj)
              obtain ⟨ek, ev⟩ := e
              cases hk
              have := (p4 (j + 1) k' ev (by simpa using hj)).2
              simpa using this
          rw [h5]
          rfl
    · rw [if_neg hd]
      constructor
      · intro h; cases h
      · rintro ⟨p1, p2, p3, p4⟩
        exact absurd (p4 0 k v rfl).1 hd

/-- `argNames` succeeds exactly on well-formed argument lists and tells which option each argument is for -/
theorem argNames_ok {sig : List DArg} {l : List (Option Bs × Val)} {names : List Bs} (h : argNames sig 0 true l = .ok names) :
    WellFormed sig l ∧ names.length = l.length ∧ ∀ j n, names[j]? = some n ↔ IsFor sig l j n := by
  obtain ⟨p1, p2, p3, p4⟩ := (argNames_iff sig l 0 names).mp h
  refine ⟨⟨p2, ?_, ?_⟩, p1, ?_⟩
  · intro j v hj
    obtain ⟨a, h1, -⟩ := p3 j v hj
    rw [Nat.zero_add] at h1
    exact (List.getElem?_eq_some_iff.mp h1).1
  · intro j k v hj
    exact defined_iff.mp (p4 j k v hj).1
  · intro j n
    unfold IsFor
    constructor
    · intro hn
      have hlt : j < l.length := by rw [← p1]; exact (List.getElem?_eq_some_iff.mp hn).1
      obtain ⟨⟨k, v⟩, hkv⟩ : ∃ e, l[j]? = some e := ⟨_, List.getElem?_eq_getElem hlt⟩
      cases k with
      | none =>
        obtain ⟨a, h1, h2⟩ := p3 j v hkv
        rw [hn] at h2
        cases h2
        rw [Nat.zero_add] at h1
        exact Or.inr ⟨v, a, hkv, h1, rfl⟩
      | some k =>
        have := (p4 j k v hkv).2
        rw [hn] at this
        cases this
        exact Or.inl ⟨v, hkv⟩
    · rintro (⟨v, hv⟩ | ⟨v, a, hv, ha, rfl⟩)
      · exact (p4 j n v hv).2
      · obtain ⟨a', h1, h2⟩ := p3 j v hv
        rw [Nat.zero_add, ha] at h1
        cases h1
        exact h2

theorem argNames_wf {sig : List DArg} {l : List (Option Bs × Val)} (w : WellFormed sig l) : ∃ names, argNames sig 0 true l = .ok names := by
  have hex : ∀ j, j < l.length → ∃ n, IsFor sig l j n := by
    intro j hj
    obtain ⟨⟨k, v⟩, hkv⟩ : ∃ e, l[j]? = some e := ⟨_, List.getElem?_eq_getElem hj⟩
    cases k with
    | none => exact ⟨_, Or.inr ⟨v, _, hkv, List.getElem?_eq_getElem (w.posFew j v hkv), rfl⟩⟩
    | some k => exact ⟨k, Or.inl ⟨v, hkv⟩⟩
  refine ⟨(List.range l.length).map fun j => if h : j < l.length then (hex j h).choose else [], ?_⟩
  rw [argNames_iff]
  have hget : ∀ j (h : j < l.length), ((List.range l.length).map fun j => if h : j < l.length then (hex j h).choose else [])[j]? =
      some (hex j h).choose := by
    intro j h
    rw [List.getElem?_map, List.getElem?_range h]
    simp [h]
  refine ⟨by simp, w.posFirst, ?_, ?_⟩
  · intro j v hj
    have hlt := (List.getElem?_eq_some_iff.mp hj).1
    rw [hget j hlt, Nat.zero_add]
    rcases (hex j hlt).choose_spec with ⟨v', h'⟩ | ⟨v', a, h', ha, hn⟩
    · rw [hj] at h'; cases h'
    · exact ⟨a, ha, by rw [hn]⟩
  · intro j k v hj
    have hlt := (List.getElem?_eq_some_iff.mp hj).1
    rw [hget j hlt]
    refine ⟨defined_iff.mpr (w.known j k v hj), ?_⟩
    rcases (hex j hlt).choose_spec with ⟨v', h'⟩ | ⟨v', a, h', ha, hn⟩
    · rw [hj] at h'
      simp only [Option.some.injEq, Prod.mk.injEq] at h'
      rw [← h'.1]
    · rw [hj] at h'; cases h'

/-! ## the value given for an option -/

theorem lastGiven_snoc (names : List Bs) (l : List (Option Bs × Val)) (hl : names.length = l.length) (m : Bs) (e : Option Bs × Val) (n : Bs) :
    lastGiven (names ++ [m]) (l ++ [e]) n = if m = n then some e.2 else lastGiven names l n := by
  unfold lastGiven
  rw [List.zip_append hl, List.foldl_append]
  rfl

theorem lastGiven_none {names : List Bs} {l : List (Option Bs × Val)} (hl : names.length = l.length) {n : Bs} :
    lastGiven names l n = none ↔ n ∉ names := by
  induction names using List.reverseRecOn generalizing l with
  | nil =>
    have : l = [] := List.length_eq_zero_iff.mp (by simpa using hl.symm)
    rw [this]
    simp [lastGiven]
  | append_singleton names m ih =>
    rcases List.eq_nil_or_concat l with rfl | ⟨l', e, rfl⟩
    · simp at hl
    · have hl' : names.length = l'.length := by simpa using hl
      simp only [List.concat_eq_append]
      rw [lastGiven_snoc names l' hl']
      by_cases hm : m = n
      · rw [if_pos hm]; simp [hm]
      · rw [if_neg hm, ih hl']
        simp [Ne.symm hm]

theorem lastGiven_some {names : List Bs} {l : List (Option Bs × Val)} (hl : names.length = l.length) {n : Bs} {v : Val} :
    lastGiven names l n = some v ↔ ∃ (j : Nat) (k : Option Bs), l[j]? = some (k, v) ∧ names[j]? = some n ∧ ∀ j', j < j' → names[j']? ≠ some n := by
  induction names using List.reverseRecOn generalizing l with
  | nil =>
    have : l = [] := List.length_eq_zero_iff.mp (by simpa using hl.symm)
    rw [this]
    simp [lastGiven]
  | append_singleton names m ih =>
    rcases List.eq_nil_or_concat l with rfl | ⟨l', e, rfl⟩
    · simp at hl
    · have hl' : names.length = l'.length := by simpa using hl
      simp only [List.concat_eq_append]
      rw [lastGiven_snoc names l' hl']
      by_cases hm : m = n
      · rw [if_pos hm]
        constructor
        · intro h
          cases h
          refine ⟨l'.length, e.1, by simp, by rw [← hl']; simp [hm], ?_⟩
          intro j' hj'
          rw [List.getElem?_eq_none (by simp; omega)]
          simp
        · rintro ⟨j, k, h1, h2, h3⟩
          have hj : j < l'.length + 1 := by have := (List.getElem?_eq_some_iff.mp h1).1; simpa using this
          by_cases hjl : j = l'.length
          · rw [hjl] at h1
            simp at h1
            rw [h1]
          · exact absurd (by rw [← hl']; simp [hm]) (h3 l'.length (by omega))
      · rw [if_neg hm, ih hl']
        constructor
        · rintro ⟨j, k, h1, h2, h3⟩
          have hj1 := (List.getElem?_eq_some_iff.mp h1).1
          refine ⟨j, k, by rw [List.getElem?_append_left hj1]; exact h1, by rw [List.getElem?_append_left (by omega)]; exact h2, ?_⟩
          intro j' hj'
          by_cases hlt : j' < names.length
          · rw [List.getElem?_append_left hlt]; exact h3 j' hj'
          · rw [List.getElem?_append_right (by omega)]
            intro hc
            have : j' - names.length = 0 := by have := (List.getElem?_eq_some_iff.mp hc).1; simp at this; omega
            rw [this] at hc
            simp at hc
            exact hm hc
        · rintro ⟨j, k, h1, h2, h3⟩
          have hj : j < l'.length + 1 := by have := (List.getElem?_eq_some_iff.mp h1).1; simpa using this
          by_cases hjl : j = l'.length
          · rw [hjl, ← hl'] at h2
            simp at h2
            exact absurd h2 hm
          · refine ⟨j, k, by rwa [List.getElem?_append_left (by omega)] at h1, by rwa [List.getElem?_append_left (by omega)] at h2, ?_⟩
            intro j' hj' hc
            have hlt := (List.getElem?_eq_some_iff.mp hc).1
            exact h3 j' hj' (by rw [List.getElem?_append_left hlt]; exact hc)

theorem lastGiven_given {sig : List DArg} {l : List (Option Bs × Val)} {names : List Bs} (h : argNames sig 0 true l = .ok names)
    {n : Bs} {v : Val} : lastGiven names l n = some v ↔ Given sig l n v := by
  obtain ⟨-, h2, h3⟩ := argNames_ok h
  rw [lastGiven_some h2]
  unfold Given
  constructor
  · rintro ⟨j, k, a, b, c⟩
    exact ⟨j, k, a, (h3 j n).mp b, fun j' hj' hc => c j' hj' ((h3 j' n).mpr hc)⟩
  · rintro ⟨j, k, a, b, c⟩
    exact ⟨j, k, a, (h3 j n).mpr b, fun j' hj' hc => c j' hj' ((h3 j' n).mp hc)⟩

theorem lastGiven_missing {sig : List DArg} {l : List (Option Bs × Val)} {names : List Bs} (h : argNames sig 0 true l = .ok names)
    {n : Bs} : lastGiven names l n = none ↔ ∀ j, ¬ IsFor sig l j n := by
  obtain ⟨-, h2, h3⟩ := argNames_ok h
  rw [lastGiven_none h2]
  constructor
  · intro hn j hj
    exact hn (List.mem_of_getElem? ((h3 j n).mpr hj))
  · intro hn hm
    obtain ⟨j, hj⟩ := List.getElem?_of_mem hm
    exact hn j ((h3 j n).mp hj)

end Opt
end Tdc
