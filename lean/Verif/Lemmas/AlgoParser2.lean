import Verif.Lemmas.AlgoParser

namespace Tdc
namespace Ast

/-! ## the parser ends on every text -/

/-- a value or an exception -/
def Fine {α : Type} (x : Res α) : Prop := ∀ e, x = .error e → e = .throw

theorem Fine.ok {α : Type} (a : α) : Fine (.ok a : Res α) := fun e h => by cases h
theorem Fine.throw {α : Type} : Fine (.error .throw : Res α) := fun e h => by cases h; rfl

theorem Fine.bind {α β : Type} {x : Res α} {f : α → Res β} (hx : Fine x) (hf : ∀ a, x = .ok a → Fine (f a)) : Fine (x.bind f) := by
  cases x with
  | error e => intro e' h; cases h; exact hx e rfl
  | ok a => exact hf a rfl

theorem bind_ok {α β : Type} {x : Res α} {f : α → Res β} {b : β} (h : x.bind f = .ok b) : ∃ a, x = .ok a ∧ f a = .ok b := by
  cases x with
  | error e => cases h
  | ok a => exact ⟨a, rfl, h⟩

theorem tail_lt {s : Bs} {c : UInt8} (hc : c ≠ 0) (h : cur s = c) : s.tail.length < s.length := by
  cases s with
  | nil => exact absurd h.symm hc
  | cons d t => simp

theorem parseQuoted_fine {d : UInt8} (s : Bs) : Fine (parseQuoted d s) := by
  unfold parseQuoted
  split
  · split
    · exact Fine.ok _
    · exact Fine.throw
  · exact Fine.throw

theorem parseQuoted_ok {d : UInt8} (hd : d ≠ 0) (hdw : isWs d = false) {s : Bs} {v : Val} {r : Bs} (h : parseQuoted d s = .ok (v, r)) :
    ∃ x, v = .str x ∧ skipWs s = d :: x ++ d :: r ∧ d ∉ x := by
  unfold parseQuoted at h
  rw [parseChar_eq hd] at h
  by_cases hc : cur (skipWs s) = d
  · simp only [if_pos hc, reduceIte] at h
    split at h
    · rename_i q hq
      obtain ⟨x, e1, e2, e3⟩ := strLoop_sound hd hdw _ _ _ q.1 q.2 rfl hq
      simp only [Except.ok.injEq, Prod.mk.injEq, List.nil_append] at h e1
      refine ⟨x, by rw [← h.1, e1], ?_, e3⟩
      rw [← h.2]
      cases e : skipWs s with
      | nil => rw [e] at hc; exact absurd hc.symm hd
      | cons c t =>
        rw [e] at hc e2
        have : c = d := hc
        rw [this]
        have e2 : t = x ++ d :: q.2 := e2
        rw [e2]
        rfl
    · cases h
  · simp only [if_neg hc] at h
    cases h

theorem parseNumber_fine (n : Nat) (s : Bs) : Fine (parseNumber n s) := by
  unfold parseNumber
  split
  · exact Fine.ok _
  · split
    · exact Fine.ok _
    · exact Fine.throw

theorem parseNumber_ok {n : Nat} {s : Bs} {v : Val} {r : Bs} (h : parseNumber n s = .ok (v, r)) :
    ∃ x, v = .str x ∧ s = x ++ r ∧ (∀ d ∈ x, isNum d = true ∨ isWs d = true) ∧ isNum (cur r) = false ∧ skipWs r = r := by
  unfold parseNumber at h
  split at h
  · rename_i q hq
    obtain ⟨x, e1, e2, e3, e4, e5⟩ := numLoop_sound _ _ _ q.1 q.2 rfl hq
    simp only [Except.ok.injEq, Prod.mk.injEq, List.nil_append] at h e1
    exact ⟨x, by rw [← h.1, e1], by rw [← h.2]; exact e2, e3, by rw [← h.2]; exact e4, by rw [← h.2]; exact e5⟩
  · rename_i hq
    split at h
    · simp only [Except.ok.injEq, Prod.mk.injEq] at h
      refine ⟨s, h.1.symm, by rw [← h.2]; simp, numLoop_none _ _ _ rfl hq, by rw [← h.2]; rfl, by rw [← h.2]; rfl⟩
    · cases h

theorem skip_len (s : Bs) : (skipWs s).length ≤ s.length := skipWs_length s

theorem parseIdent_len (s : Bs) : (parseIdent s).1.length + (parseIdent s).2.length ≤ s.length := by
  have h0 := skip_len s
  cases h : isAlpha (cur (skipWs s)) with
  | true =>
    obtain ⟨-, e, -⟩ := parseIdent_some h
    rw [e, List.length_append] at h0
    exact h0
  | false =>
    rw [parseIdent_none h]
    simpa using h0

/-- the bundle of statements about one amount of fuel -/
structure Ends (n f : Nat) : Prop where
  single : ∀ s ident, 4 * s.length + 1 ≤ f → Fine (parseSingle n f s ident) ∧
    ∀ v r, parseSingle n f s ident = .ok (v, r) → r.length ≤ s.length ∧ (ident = [] → r.length < s.length)
  args : ∀ s first, 4 * s.length + 4 ≤ f → Fine (parseArgs n f s first) ∧ ∀ a r, parseArgs n f s first = .ok (a, r) → r.length < s.length
  value : ∀ s ident, 4 * s.length + 2 ≤ f → Fine (parseValue n f s ident) ∧
    ∀ v r, parseValue n f s ident = .ok (v, r) → r.length ≤ s.length ∧ (ident = [] → r.length < s.length)
  chain : ∀ s v, 4 * s.length + 1 ≤ f → Fine (chainLoop n f s v) ∧ ∀ v' r, chainLoop n f s v = .ok (v', r) → r.length ≤ s.length
  arg : ∀ s, 4 * s.length + 3 ≤ f → Fine (parseArg n f s) ∧ ∀ k v r, parseArg n f s = .ok (k, v, r) → r.length < s.length

theorem ends_after {n f : Nat} (ih : Ends n f) (r : Bs × Bs) (h : 4 * r.2.length ≤ f) :
    Fine (afterIdent n f r) ∧ ∀ v q, afterIdent n f r = .ok (v, q) → q.length ≤ r.2.length := by
  have hs := skip_len r.2
  unfold afterIdent
  split
  · exact ⟨Fine.ok _, fun v q h => by cases h; exact Nat.le_refl _⟩
  split
  · rename_i hc
    have ht := tail_lt (by decide) hc
    obtain ⟨h1, h2⟩ := ih.args (skipWs r.2).tail true (by omega)
    refine ⟨h1.bind fun a _ => Fine.ok _, fun v q h => ?_⟩
    obtain ⟨a, ha, hb⟩ := bind_ok h
    cases hb
    have := h2 a.1 a.2 ha
    omega
  · exact ⟨Fine.ok _, fun v q h => by cases h; exact hs⟩

theorem ends (n : Nat) : ∀ f, Ends n f := by
  intro f
  induction f with
  | zero =>
    exact ⟨fun s i h => by omega, fun s i h => by omega, fun s i h => by omega, fun s i h => by omega, fun s h => by omega⟩
  | succ f ih =>
    refine ⟨?_, ?_, ?_, ?_, ?_⟩
    · intro s ident hf
      have hs := skip_len s
      by_cases hi : ident = []
      · subst hi
        rw [parseSingle_nil]
        have hq : ∀ d : UInt8, d ≠ 0 → isWs d = false → Fine (parseQuoted d (skipWs s)) ∧
            ∀ v r, parseQuoted d (skipWs s) = .ok (v, r) → r.length ≤ s.length ∧ (([] : Bs) = [] → r.length < s.length) := by
          intro d h1 h2
          refine ⟨parseQuoted_fine _, fun v r h => ?_⟩
          obtain ⟨x, -, e, -⟩ := parseQuoted_ok h1 h2 h
          rw [skipWs_idem] at e
          have := congrArg List.length e
          simp at this
          constructor
          · omega
          · intro _; omega
        split
        · exact hq 34 (by decide) (by decide)
        split
        · exact hq 39 (by decide) (by decide)
        split
        · rename_i hn
          refine ⟨parseNumber_fine _ _, fun v r h => ?_⟩
          obtain ⟨x, -, e, -, e2, -⟩ := parseNumber_ok h
          have hx : x ≠ [] := by
            intro hx
            rw [hx, List.nil_append] at e
            rw [e, e2] at hn
            exact absurd hn (by decide)
          have := congrArg List.length e
          have hxl := List.length_pos_iff.mpr hx
          simp at this
          constructor
          · omega
          · intro _; omega
        · have hp := parseIdent_len s
          unfold startIdent
          rw [if_pos rfl]
          split
          · exact ⟨Fine.throw.bind (fun a h => by cases h), fun v r h => by cases h⟩
          · rename_i hne
            have hxl := List.length_pos_iff.mpr hne
            obtain ⟨h1, h2⟩ := ends_after ih (parseIdent s) (by omega)
            refine ⟨h1, fun v r h => ?_⟩
            have := h2 v r h
            constructor
            · omega
            · intro _; omega
      · rw [parseSingle_id n f s ident hi]
        obtain ⟨h1, h2⟩ := ends_after ih (ident, skipWs s) (by show 4 * (skipWs s).length ≤ f; omega)
        refine ⟨h1, fun v r h => ⟨?_, fun h0 => absurd h0 hi⟩⟩
        have : r.length ≤ (skipWs s).length := h2 v r h
        omega
    · intro s first hf
      have hs := skip_len s
      rw [parseArgs_eq]
      split
      · rename_i hc
        have := tail_lt (by decide) hc
        exact ⟨Fine.ok _, fun a r h => by cases h; omega⟩
      split
      · rename_i hc
        have hl : (if first = true then skipWs s else (skipWs s).tail).length ≤ s.length := by
          split
          · exact hs
          · rw [List.length_tail]; omega
        generalize (if first = true then skipWs s else (skipWs s).tail) = s1 at hl
        split
        · rename_i hc
          have := tail_lt (by decide) hc
          have := skip_len s1
          exact ⟨Fine.ok _, fun a r h => by cases h; omega⟩
        · obtain ⟨h1, h2⟩ := ih.arg s1 (by omega)
          constructor
          · refine h1.bind fun a ha => ?_
            have := h2 a.1 a.2.1 a.2.2 ha
            exact (ih.args a.2.2 false (by omega)).1.bind fun _ _ => Fine.ok _
          · intro a r h
            obtain ⟨x, hx, h⟩ := bind_ok h
            obtain ⟨y, hy, h⟩ := bind_ok h
            cases h
            have e1 := h2 x.1 x.2.1 x.2.2 hx
            have e2 := (ih.args x.2.2 false (by omega)).2 y.1 y.2 hy
            omega
      · exact ⟨Fine.throw, fun a r h => by cases h⟩
    · intro s ident hf
      rw [parseValue]
      obtain ⟨h1, h2⟩ := ih.single s ident (by omega)
      constructor
      · refine h1.bind fun a ha => ?_
        have := (h2 a.1 a.2 ha).1
        exact (ih.chain a.2 a.1 (by omega)).1
      · intro v r h
        obtain ⟨a, ha, h⟩ := bind_ok h
        obtain ⟨e1, e2⟩ := h2 a.1 a.2 ha
        have e3 := (ih.chain a.2 a.1 (by omega)).2 v r h
        exact ⟨by omega, fun h0 => by have := e2 h0; omega⟩
    · intro s v hf
      have hs := skip_len s
      rw [chainLoop_eq]
      split
      · rename_i hc
        have := tail_lt (by decide) hc
        obtain ⟨h1, h2⟩ := ih.single (skipWs s).tail [] (by omega)
        constructor
        · refine h1.bind fun a ha => ?_
          have := (h2 a.1 a.2 ha).1
          exact (ih.chain a.2 _ (by omega)).1
        · intro v' r h
          obtain ⟨a, ha, h⟩ := bind_ok h
          have e1 := (h2 a.1 a.2 ha).1
          have e3 := (ih.chain a.2 _ (by omega)).2 v' r h
          omega
      · exact ⟨Fine.ok _, fun v' r h => by cases h; exact hs⟩
    · intro s hf
      have hp := parseIdent_len s
      rw [parseArg_eq]
      split
      · rename_i hid
        obtain ⟨h1, h2⟩ := ih.value (parseIdent s).2 [] (by omega)
        refine ⟨h1.bind fun _ _ => Fine.ok _, fun k v r h => ?_⟩
        obtain ⟨a, ha, h⟩ := bind_ok h
        cases h
        have := (h2 _ _ ha).2 rfl
        omega
      · rename_i hid
        have hxl := List.length_pos_iff.mpr hid
        have hs2 := skip_len (parseIdent s).2
        split
        · rename_i hc
          have := tail_lt (by decide) hc
          obtain ⟨h1, h2⟩ := ih.value (skipWs (parseIdent s).2).tail [] (by omega)
          refine ⟨h1.bind fun _ _ => Fine.ok _, fun k v r h => ?_⟩
          obtain ⟨a, ha, h⟩ := bind_ok h
          cases h
          have := (h2 _ _ ha).1
          omega
        · obtain ⟨h1, h2⟩ := ih.value (skipWs (parseIdent s).2) (parseIdent s).1 (by omega)
          refine ⟨h1.bind fun _ _ => Fine.ok _, fun k v r h => ?_⟩
          obtain ⟨a, ha, h⟩ := bind_ok h
          cases h
          have := (h2 _ _ ha).1
          omega

/-! ## the parser accepts only the grammar -/

theorem IsIdent.ne_nil {x : Bs} (h : IsIdent x) : x ≠ [] := by
  obtain ⟨c, t, rfl, -⟩ := h
  exact List.cons_ne_nil _ _

theorem trueB_ident : IsIdent trueB := ⟨116, _, rfl, by decide, by decide⟩
theorem falseB_ident : IsIdent falseB := ⟨102, _, rfl, by decide, by decide⟩

/-- the bundle of statements about one amount of fuel -/
structure Sound (n f : Nat) : Prop where
  single : ∀ s v r, parseSingle n f s [] = .ok (v, r) → ∃ w tok b, AllWs w ∧ s = w ++ tok ++ skipWs r ∧ GSingle b v tok
  singleId : ∀ s id v r, IsIdent id → parseSingle n f s id = .ok (v, r) → ∃ tok b, s = tok ++ skipWs r ∧ GSingle b v (id ++ tok)
  args : ∀ s a r, parseArgs n f s true = .ok (a, r) → ∃ tok, s = tok ++ r ∧ GArgs a tok
  tail : ∀ s a r, parseArgs n f s false = .ok (a, r) → ∃ w tok, AllWs w ∧ s = w ++ tok ++ r ∧ GTail a tok
  value : ∀ s v r, parseValue n f s [] = .ok (v, r) → ∃ w tok b, AllWs w ∧ s = w ++ tok ++ skipWs r ∧ GValue b v tok
  valueId : ∀ s id v r, IsIdent id → parseValue n f s id = .ok (v, r) → ∃ tok b, s = tok ++ skipWs r ∧ GValue b v (id ++ tok)
  chain : ∀ s v v' r b tok, chainLoop n f s v = .ok (v', r) → GValue b v tok → ∃ tok' b', skipWs s = tok' ++ skipWs r ∧ GValue b' v' (tok ++ tok')
  arg : ∀ s k v r, parseArg n f s = .ok (k, v, r) → ∃ w tok, AllWs w ∧ s = w ++ tok ++ skipWs r ∧ GArg k v tok

theorem cur_cons {s : Bs} {c : UInt8} (hc : c ≠ 0) (h : cur s = c) : s = c :: s.tail := by
  cases s with
  | nil => exact absurd h.symm hc
  | cons d t =>
    have : d = c := h
    rw [this]
    rfl

theorem split_skip (r : Bs) : ∃ w, AllWs w ∧ r = w ++ skipWs r := ⟨_, allWs_takeWhile r, (take_skip r).symm⟩

theorem sound_after {n f : Nat} (ih : Sound n f) (id s : Bs) (hid : IsIdent id) (v : Val) (r : Bs) (h : afterIdent n f (id, s) = .ok (v, r)) :
    ∃ tok b, s = tok ++ skipWs r ∧ GSingle b v (id ++ tok) := by
  unfold afterIdent at h
  simp only at h
  obtain ⟨w, hw, es⟩ := split_skip s
  split at h
  · rename_i hb
    cases h
    exact ⟨w, false, es, GSingle.bool _ _ hb hw⟩
  rename_i hb
  split at h
  · rename_i hc
    obtain ⟨a, ha, h⟩ := bind_ok h
    cases h
    obtain ⟨tok, e, g⟩ := ih.args _ a.1 a.2 ha
    obtain ⟨w2, hw2, e2⟩ := split_skip a.2
    refine ⟨w ++ 40 :: tok ++ w2, false, ?_, ?_⟩
    · rw [es, cur_cons (by decide) hc, e]
      simp only [List.append_assoc, List.cons_append]
      rw [← e2]
    · have := GSingle.inv id w tok w2 a.1 hid (fun h => hb (Or.inl h)) (fun h => hb (Or.inr h)) hw g hw2
      simpa using this
  · cases h
    refine ⟨w, false, ?_, GSingle.inv0 _ _ hid (fun h => hb (Or.inl h)) (fun h => hb (Or.inr h)) hw⟩
    rw [skipWs_idem]
    exact es

theorem skip_tail {a : Args} {t : Bs} (g : GTail a t) (x : Bs) : skipWs (t ++ x) = t ++ x := by
  cases g <;> rfl

theorem parseValue_skip (n f : Nat) {id : Bs} (s : Bs) (h : id ≠ []) : parseValue n f (skipWs s) id = parseValue n f s id := by
  cases f with
  | zero => rfl
  | succ f =>
    rw [parseValue, parseValue]
    cases f with
    | zero => rfl
    | succ f => rw [parseSingle_id n f _ id h, parseSingle_id n f _ id h, skipWs_idem]

theorem sound (n : Nat) : ∀ f, Sound n f := by
  intro f
  induction f with
  | zero =>
    constructor <;> intros
    case single h => rw [parseSingle] at h; cases h
    case singleId h => rw [parseSingle] at h; cases h
    case args h => rw [parseArgs] at h; cases h
    case tail h => rw [parseArgs] at h; cases h
    case value h => rw [parseValue] at h; cases h
    case valueId h => rw [parseValue] at h; cases h
    case chain h _ => rw [chainLoop] at h; cases h
    case arg h => rw [parseArg] at h; cases h
  | succ f ih =>
    constructor
    case single =>
      intro s v r h
      rw [parseSingle_nil] at h
      obtain ⟨w, hw, es⟩ := split_skip s
      obtain ⟨wr, hwr, er⟩ := split_skip r
      split at h
      · obtain ⟨x, e1, e2, e3⟩ := parseQuoted_ok (by decide) (by decide) h
        rw [skipWs_idem] at e2
        refine ⟨w, 34 :: x ++ 34 :: wr, false, hw, ?_, by rw [e1]; exact GSingle.dquote x wr e3 hwr⟩
        rw [es, e2]
        simp only [List.append_assoc, List.cons_append]
        rw [← er]
      split at h
      · obtain ⟨x, e1, e2, e3⟩ := parseQuoted_ok (by decide) (by decide) h
        rw [skipWs_idem] at e2
        refine ⟨w, 39 :: x ++ 39 :: wr, false, hw, ?_, by rw [e1]; exact GSingle.squote x wr e3 hwr⟩
        rw [es, e2]
        simp only [List.append_assoc, List.cons_append]
        rw [← er]
      split at h
      · rename_i hn
        obtain ⟨x, e1, e2, e3, e4, e5⟩ := parseNumber_ok h
        cases x with
        | nil =>
          rw [List.nil_append] at e2
          rw [e2, e4] at hn
          exact absurd hn (by decide)
        | cons c x =>
          rw [e2] at hn
          subst e1
          refine ⟨w, c :: x, _, hw, ?_, GSingle.num c x (num_iff.mp hn) (fun d hd => ?_)⟩
          · rw [e5, List.append_assoc, ← e2]
            exact es
          · rcases e3 d (List.mem_cons_of_mem _ hd) with h | h
            · exact Or.inl (num_iff.mp h)
            · exact Or.inr (ws1_iff.mp h)
      · obtain ⟨q, hq, h⟩ := bind_ok h
        unfold startIdent at hq
        rw [if_pos rfl] at hq
        split at hq
        · cases hq
        · rename_i hne
          cases hq
          have ha : isAlpha (cur (skipWs s)) = true := by
            cases ha : isAlpha (cur (skipWs s)) with
            | true => rfl
            | false => rw [parseIdent_none ha] at hne; exact absurd rfl hne
          obtain ⟨i1, i2, -⟩ := parseIdent_some ha
          obtain ⟨tok, b, e, g⟩ := sound_after ih (parseIdent s).1 (parseIdent s).2 i1 v r h
          refine ⟨w, (parseIdent s).1 ++ tok, b, hw, ?_, g⟩
          rw [List.append_assoc, List.append_assoc, ← e, ← i2]
          exact es
    case singleId =>
      intro s id v r hid h
      rw [parseSingle_id n f s id hid.ne_nil] at h
      obtain ⟨w, hw, es⟩ := split_skip s
      unfold afterIdent at h
      simp only at h
      split at h
      · rename_i hb
        cases h
        refine ⟨w, false, ?_, GSingle.bool _ _ hb hw⟩
        rw [skipWs_idem]
        exact es
      rename_i hb
      rw [skipWs_idem] at h
      split at h
      · rename_i hc
        obtain ⟨a, ha, h⟩ := bind_ok h
        cases h
        obtain ⟨tok, e, g⟩ := ih.args _ a.1 a.2 ha
        obtain ⟨w2, hw2, e2⟩ := split_skip a.2
        refine ⟨w ++ 40 :: tok ++ w2, false, ?_, ?_⟩
        · rw [es, cur_cons (by decide) hc, e]
          simp only [List.append_assoc, List.cons_append]
          rw [← e2]
        · have := GSingle.inv id w tok w2 a.1 hid (fun h => hb (Or.inl h)) (fun h => hb (Or.inr h)) hw g hw2
          simpa using this
      · cases h
        refine ⟨w, false, ?_, GSingle.inv0 _ _ hid (fun h => hb (Or.inl h)) (fun h => hb (Or.inr h)) hw⟩
        rw [skipWs_idem]
        exact es
    case args =>
      intro s a r h
      rw [parseArgs_eq] at h
      obtain ⟨w, hw, es⟩ := split_skip s
      simp only [reduceIte, skipWs_idem, true_or] at h
      split at h
      · rename_i hc
        cases h
        refine ⟨w ++ [41], ?_, GArgs.nil w hw⟩
        rw [List.append_assoc, List.singleton_append, ← cur_cons (by decide) hc]
        exact es
      · obtain ⟨x, hx, h⟩ := bind_ok h
        obtain ⟨y, hy, h⟩ := bind_ok h
        cases h
        obtain ⟨w1, t1, hw1, e1, g1⟩ := ih.arg _ x.1 x.2.1 x.2.2 hx
        obtain ⟨w2, t2, hw2, e2, g2⟩ := ih.tail _ y.1 y.2 hy
        have key : skipWs x.2.2 = t2 ++ y.2 := by
          rw [e2, List.append_assoc, skipWs_append hw2, skip_tail g2]
        refine ⟨(w ++ w1) ++ t1 ++ t2, ?_, GArgs.cons (w ++ w1) x.1 x.2.1 t1 y.1 t2 (hw.append hw1) g1 g2⟩
        have e3 : skipWs s = w1 ++ t1 ++ (t2 ++ y.2) := by rw [← key]; exact e1
        refine es.trans ?_
        rw [e3]
        simp
    case tail =>
      intro s a r h
      rw [parseArgs_eq] at h
      obtain ⟨w, hw, es⟩ := split_skip s
      simp only [Bool.false_eq_true, reduceIte, false_or] at h
      split at h
      · rename_i hc
        cases h
        refine ⟨w, [41], hw, ?_, GTail.close⟩
        rw [List.append_assoc, List.singleton_append, ← cur_cons (by decide) hc]
        exact es
      split at h
      · rename_i hc
        obtain ⟨w', hw', es'⟩ := split_skip (skipWs s).tail
        split at h
        · rename_i hc'
          cases h
          refine ⟨w, 44 :: w' ++ [41], hw, ?_, GTail.trailing w' hw'⟩
          have e1 : (skipWs s).tail = w' ++ 41 :: (skipWs (skipWs s).tail).tail := by rw [← cur_cons (by decide) hc']; exact es'
          have e2 : skipWs s = 44 :: (w' ++ 41 :: (skipWs (skipWs s).tail).tail) := by rw [← e1]; exact cur_cons (by decide) hc
          refine es.trans ?_
          rw [List.append_assoc]
          congr 1
          refine e2.trans ?_
          simp
        · obtain ⟨x, hx, h⟩ := bind_ok h
          obtain ⟨y, hy, h⟩ := bind_ok h
          cases h
          obtain ⟨w1, t1, hw1, e1, g1⟩ := ih.arg _ x.1 x.2.1 x.2.2 hx
          obtain ⟨w2, t2, hw2, e2, g2⟩ := ih.tail _ y.1 y.2 hy
          have key : skipWs x.2.2 = t2 ++ y.2 := by
            rw [e2, List.append_assoc, skipWs_append hw2, skip_tail g2]
          refine ⟨w, 44 :: w1 ++ t1 ++ t2, hw, ?_, GTail.more w1 x.1 x.2.1 t1 y.1 t2 hw1 g1 g2⟩
          have es2 : skipWs s = 44 :: (w1 ++ t1 ++ (t2 ++ y.2)) := by
            rw [← key, ← e1]
            exact cur_cons (by decide) hc
          refine es.trans ?_
          rw [es2]
          simp
      · cases h
    case value =>
      intro s v r h
      rw [parseValue] at h
      obtain ⟨a, ha, h⟩ := bind_ok h
      obtain ⟨w, tok, b, hw, e, g⟩ := ih.single s a.1 a.2 ha
      obtain ⟨tok', b', e', g'⟩ := ih.chain a.2 a.1 v r b tok h (GValue.single _ _ _ g)
      refine ⟨w, tok ++ tok', b', hw, ?_, g'⟩
      rw [e, e']
      simp
    case valueId =>
      intro s id v r hid h
      rw [parseValue] at h
      obtain ⟨a, ha, h⟩ := bind_ok h
      obtain ⟨tok, b, e, g⟩ := ih.singleId s id a.1 a.2 hid ha
      obtain ⟨tok', b', e', g'⟩ := ih.chain a.2 a.1 v r b _ h (GValue.single _ _ _ g)
      refine ⟨tok ++ tok', b', ?_, by rw [← List.append_assoc]; exact g'⟩
      rw [e, e']
      simp
    case chain =>
      intro s v v' r b tok h g
      rw [chainLoop_eq] at h
      split at h
      · rename_i hc
        obtain ⟨a, ha, h⟩ := bind_ok h
        obtain ⟨w, t1, b1, hw, e, g1⟩ := ih.single _ a.1 a.2 ha
        obtain ⟨t2, b2, e2, g2⟩ := ih.chain a.2 _ v' r b1 _ h (GValue.chain b b1 v a.1 tok w t1 g hw g1)
        refine ⟨58 :: w ++ t1 ++ t2, b2, ?_, by simpa using g2⟩
        rw [cur_cons (by decide) hc, e, e2]
        simp
      · cases h
        exact ⟨[], b, by rw [skipWs_idem]; rfl, by rw [List.append_nil]; exact g⟩
    case arg =>
      intro s k v r h
      rw [parseArg_eq] at h
      obtain ⟨w, hw, es⟩ := split_skip s
      split at h
      · rename_i hid
        obtain ⟨a, ha, h⟩ := bind_ok h
        cases h
        have hal : isAlpha (cur (skipWs s)) = false := by
          cases hal : isAlpha (cur (skipWs s)) with
          | false => rfl
          | true => exact absurd hid (parseIdent_some hal).1.ne_nil
        rw [parseIdent_none hal] at ha
        obtain ⟨w1, tok, b, hw1, e, g⟩ := ih.value _ _ _ ha
        refine ⟨w ++ w1, tok, hw.append hw1, ?_, GArg.pos b _ _ g⟩
        refine es.trans ?_
        have e : skipWs s = _ := e
        rw [e]
        simp only [List.append_assoc]
      · rename_i hid
        have hal : isAlpha (cur (skipWs s)) = true := by
          cases hal : isAlpha (cur (skipWs s)) with
          | true => rfl
          | false => rw [parseIdent_none hal] at hid; exact absurd rfl hid
        obtain ⟨i1, i2, -⟩ := parseIdent_some hal
        obtain ⟨w1, hw1, e1⟩ := split_skip (parseIdent s).2
        split at h
        · rename_i hc
          obtain ⟨a, ha, h⟩ := bind_ok h
          cases h
          obtain ⟨w2, tok, b, hw2, e, g⟩ := ih.value _ _ _ ha
          refine ⟨w, (parseIdent s).1 ++ w1 ++ 61 :: w2 ++ tok, hw, ?_, GArg.kw _ w1 w2 b _ tok i1 hw1 hw2 g⟩
          have e3 : (parseIdent s).2 = w1 ++ 61 :: (w2 ++ tok ++ skipWs r) := by
            rw [← e, ← cur_cons (by decide) hc]
            exact e1
          refine es.trans ?_
          rw [i2]
          have e4 := congrArg ((parseIdent s).1 ++ ·) e3
          rw [e4]
          simp
        · obtain ⟨a, ha, h⟩ := bind_ok h
          cases h
          rw [parseValue_skip _ _ _ hid] at ha
          obtain ⟨tok, b, e, g⟩ := ih.valueId _ (parseIdent s).1 _ _ i1 ha
          refine ⟨w, (parseIdent s).1 ++ tok, hw, ?_, GArg.pos b _ _ g⟩
          rw [List.append_assoc, List.append_assoc, ← e, ← i2]
          exact es

end Ast
end Tdc
