import Verif.Lemmas.AlgoParser2

namespace Tdc
namespace Ast

/-! ## the parser accepts the grammar -/

/-- what may follow a token without changing it -/
def Stop (rest : Bs) : Prop :=
  isWs (cur rest) = false ∧ isIdent (cur rest) = false ∧ isNum (cur rest) = false ∧ cur rest ≠ 40 ∧ cur rest ≠ 61

theorem parseIdent_skip (s : Bs) : parseIdent (skipWs s) = parseIdent s := by
  unfold parseIdent
  rw [skipWs_idem]

theorem parseIdent_of {r0 name t : Bs} (h : skipWs r0 = name ++ t) (hn : IsIdent name) (ht : isIdent (cur t) = false) :
    parseIdent r0 = (name, t) := by
  rw [← parseIdent_skip, h]
  exact parseIdent_word (w := []) allWs_nil hn ht

theorem cur_ws_rest {w rest : Bs} (hw : AllWs w) (p : UInt8 → Bool) (hp : ∀ c, isWs c = true → p c = false) (hr : p (cur rest) = false) :
    p (cur (w ++ rest)) = false := by
  cases w with
  | nil => exact hr
  | cons c t => exact hp c (hw.isWs c (by simp))

theorem Stop.skip {rest : Bs} (h : Stop rest) : skipWs rest = rest := skip_cur h.1

theorem Stop.skip_ws {w rest : Bs} (h : Stop rest) (hw : AllWs w) : skipWs (w ++ rest) = rest := by
  rw [skipWs_append hw, h.skip]

theorem Stop.ident_ws {w rest : Bs} (h : Stop rest) (hw : AllWs w) : isIdent (cur (w ++ rest)) = false :=
  cur_ws_rest hw isIdent (fun c hc => (ws_facts hc).2.2.1) h.2.1

theorem cur_c (c : UInt8) (t : Bs) : cur (c :: t) = c := rfl

theorem stop_colon (t : Bs) : Stop (58 :: t) := by
  unfold Stop
  rw [cur_c]
  decide

theorem stop_tail {a : Args} {t : Bs} (g : GTail a t) (rest : Bs) : Stop (t ++ rest) ∧ cur (t ++ rest) ≠ 58 ∧ t ++ rest ≠ [] := by
  have h : cur (t ++ rest) = 41 ∨ cur (t ++ rest) = 44 := by
    cases g
    · exact Or.inl rfl
    · exact Or.inr rfl
    · exact Or.inr rfl
  have hne : t ++ rest ≠ [] := by
    intro e
    rw [e] at h
    revert h
    decide
  unfold Stop
  rcases h with h | h <;> rw [h] <;> exact ⟨by decide, by decide, hne⟩

/-- the first characters of values -/
def Start (c : UInt8) : Prop := c = 34 ∨ c = 39 ∨ isNum c = true ∨ isAlpha c = true

theorem Start.ws {c : UInt8} (h : Start c) : isWs c = false ∧ c ≠ 41 ∧ c ≠ 44 := by
  unfold Start at h
  rw [show c = UInt8.ofNat c.toNat by simp] at *
  have key : ∀ k, k < 256 → (UInt8.ofNat k = 34 ∨ UInt8.ofNat k = 39 ∨ isNum (UInt8.ofNat k) = true ∨ isAlpha (UInt8.ofNat k) = true) →
    isWs (UInt8.ofNat k) = false ∧ UInt8.ofNat k ≠ 41 ∧ UInt8.ofNat k ≠ 44 := by decide +kernel
  exact key c.toNat (UInt8.toNat_lt c) h

theorem IsIdent.start {x : Bs} (h : IsIdent x) (t : Bs) : Start (cur (x ++ t)) ∧ isAlpha (cur (x ++ t)) = true := by
  obtain ⟨c, u, rfl, hc, -⟩ := h
  exact ⟨Or.inr (Or.inr (Or.inr (alpha_iff.mpr hc))), alpha_iff.mpr hc⟩

theorem bool_ident {x : Bs} (h : x = trueB ∨ x = falseB) : IsIdent x := by
  rcases h with rfl | rfl
  · exact trueB_ident
  · exact falseB_ident

theorem start_single {b : Bool} {v : Val} {s : Bs} (g : GSingle b v s) (t : Bs) : Start (cur (s ++ t)) := by
  cases g with
  | dquote x w _ _ => exact Or.inl rfl
  | squote x w _ _ => exact Or.inr (Or.inl rfl)
  | num c x hc _ => exact Or.inr (Or.inr (Or.inl (num_iff.mpr hc)))
  | bool x w hb _ => rw [List.append_assoc]; exact ((bool_ident hb).start _).1
  | inv0 name w hn _ _ _ => rw [List.append_assoc]; exact (hn.start _).1
  | inv name w1 sa w2 args hn _ _ _ _ _ => simp only [List.append_assoc]; exact (hn.start _).1

theorem start_value : ∀ k (b : Bool) (v : Val) (s : Bs), s.length ≤ k → GValue b v s → ∀ t, Start (cur (s ++ t)) := by
  intro k
  induction k with
  | zero =>
    intro b v s hk g t
    cases g with
    | single _ _ _ g => exact start_single g t
    | chain b1 b2 v1 v2 s1 w s2 g1 hw g2 => simp at hk
  | succ k ih =>
    intro b v s hk g t
    cases g with
    | single _ _ _ g => exact start_single g t
    | chain b1 b2 v1 v2 s1 w s2 g1 hw g2 =>
      simp only [List.append_assoc]
      exact ih _ _ _ (by simp at hk; omega) g1 _

theorem start_arg {k : Option Bs} {v : Val} {s : Bs} (g : GArg k v s) (t : Bs) : Start (cur (s ++ t)) := by
  cases g with
  | pos b _ _ g => exact start_value _ _ _ _ (Nat.le_refl _) g t
  | kw k w1 w2 b _ s hk _ _ _ => simp only [List.append_assoc]; exact (hk.start _).1

/-- behind the leading identifier of a value there is no `=` -/
theorem value_no_eq : ∀ k (b : Bool) (v : Val) (s : Bs), s.length ≤ k → GValue b v s → ∀ r0 rest, skipWs r0 = s ++ rest → Stop rest →
    isAlpha (cur (skipWs r0)) = true → cur (skipWs (parseIdent r0).2) ≠ 61 := by
  intro k
  induction k with
  | zero =>
    intro b v s hk g r0 rest e hr ha
    have h := start_value 0 b v s hk g []
    rw [List.length_eq_zero_iff.mp (Nat.le_zero.mp hk)] at h
    exact absurd h (by unfold Start; decide)
  | succ k ih =>
    intro b v s hk g r0 rest e hr ha
    cases g with
    | single _ _ _ g =>
      cases g with
      | dquote x w _ _ => rw [e] at ha; exact absurd (show isAlpha _ = true from ha) (by simp only [List.cons_append, cur_c]; decide)
      | squote x w _ _ => rw [e] at ha; exact absurd (show isAlpha _ = true from ha) (by simp only [List.cons_append, cur_c]; decide)
      | num c x hc _ =>
        rw [e] at ha
        have ha : isAlpha c = true := ha
        rw [(num_facts (num_iff.mpr hc)).2.1] at ha
        exact absurd ha (by decide)
      | bool x w hb hw =>
        rw [List.append_assoc] at e
        rw [parseIdent_of e (bool_ident hb) (hr.ident_ws hw)]
        show cur (skipWs (w ++ rest)) ≠ 61
        rw [hr.skip_ws hw]
        exact hr.2.2.2.2
      | inv0 name w hn _ _ hw =>
        rw [List.append_assoc] at e
        rw [parseIdent_of e hn (hr.ident_ws hw)]
        show cur (skipWs (w ++ rest)) ≠ 61
        rw [hr.skip_ws hw]
        exact hr.2.2.2.2
      | inv name w1 sa w2 args hn _ _ hw1 _ hw2 =>
        simp only [List.append_assoc] at e
        rw [parseIdent_of e hn (cur_ws_rest hw1 isIdent (fun c hc => (ws_facts hc).2.2.1) (by rfl))]
        show cur (skipWs (w1 ++ _)) ≠ 61
        rw [skipWs_append hw1, List.cons_append, skipWs_cons (by decide)]
        exact (by decide : (40 : UInt8) ≠ 61)
    | chain b1 b2 v1 v2 s1 w s2 g1 hw g2 =>
      simp only [List.append_assoc, List.cons_append] at e
      exact ih b1 v1 s1 (by simp at hk; omega) g1 r0 _ e (stop_colon _) ha

theorem parseValue_ident (n f : Nat) {r0 : Bs} (ha : isAlpha (cur (skipWs r0)) = true) :
    parseValue n f r0 [] = parseValue n f (parseIdent r0).2 (parseIdent r0).1 := by
  obtain ⟨hid, -, -⟩ := parseIdent_some ha
  have hf := not_ws_of_alpha ha
  cases f with
  | zero => rfl
  | succ f =>
    rw [parseValue, parseValue]
    cases f with
    | zero => rfl
    | succ f =>
      rw [parseSingle_nil, if_neg hf.2.2.1, if_neg hf.2.2.2.1, if_neg (by rw [hf.2.1]; decide), parseSingle_id _ _ _ _ hid.ne_nil]
      unfold startIdent
      rw [if_pos rfl, if_neg hid.ne_nil]
      show (afterIdent n f (parseIdent r0)).bind _ = _
      unfold afterIdent
      simp only [skipWs_idem]
      split
      · show chainLoop n (f + 1) _ _ = chainLoop n (f + 1) _ _
        rw [chainLoop_eq, chainLoop_eq, skipWs_idem]
      · rfl

/-- the bundle of statements about tokens of length at most `N` -/
structure Compl (n N : Nat) : Prop where
  single : ∀ b v s, GSingle b v s → s.length ≤ N → ∀ r0 rest f, skipWs r0 = s ++ rest → Stop rest → (b = true → rest ≠ []) →
    4 * s.length + 1 ≤ f → ∃ r, parseSingle n f r0 [] = .ok (v, r) ∧ skipWs r = rest
  args : ∀ a s, GArgs a s → s.length ≤ N → ∀ rest f, 4 * s.length + 4 ≤ f → parseArgs n f (s ++ rest) true = .ok (a, rest)
  tail : ∀ a s, GTail a s → s.length ≤ N → ∀ r0 rest f, skipWs r0 = s ++ rest → 4 * s.length + 4 ≤ f →
    parseArgs n f r0 false = .ok (a, rest)
  value : ∀ b v s, GValue b v s → s.length ≤ N → ∀ r0 rest f, skipWs r0 = s ++ rest → Stop rest → (b = true → rest ≠ []) →
    4 * s.length + 2 ≤ f → ∃ f' r, parseValue n f r0 [] = chainLoop n f' r v ∧ skipWs r = rest ∧ f ≤ f' + s.length + 1
  arg : ∀ k v s, GArg k v s → s.length ≤ N → ∀ r0 rest f, skipWs r0 = s ++ rest → Stop rest → cur rest ≠ 58 → rest ≠ [] →
    4 * s.length + 3 ≤ f → ∃ r, parseArg n f r0 = .ok (k, v, r) ∧ skipWs r = rest

theorem single_pos {b : Bool} {v : Val} {s : Bs} (g : GSingle b v s) : 0 < s.length := by
  have h := start_single g []
  cases s with
  | nil => revert h; unfold Start; decide
  | cons c t => simp

theorem value_done {n f' : Nat} {r rest : Bs} {v : Val} (h : skipWs r = rest) (hc : cur rest ≠ 58) (hf : 1 ≤ f') :
    ∃ r', chainLoop n f' r v = .ok (v, r') ∧ skipWs r' = rest := by
  obtain ⟨f, rfl⟩ : ∃ f, f' = f + 1 := ⟨f' - 1, by omega⟩
  refine ⟨skipWs r, ?_, by rw [skipWs_idem, h]⟩
  rw [chainLoop_eq, if_neg (by rw [h]; exact hc)]

theorem compl (n : Nat) : ∀ N, Compl n N := by
  intro N
  induction N using Nat.strongRecOn with
  | _ N ih =>
    have Hsingle : ∀ b v s, GSingle b v s → s.length ≤ N → ∀ r0 rest f, skipWs r0 = s ++ rest → Stop rest → (b = true → rest ≠ []) →
        4 * s.length + 1 ≤ f → ∃ r, parseSingle n f r0 [] = .ok (v, r) ∧ skipWs r = rest := by
      intro b v s g hN r0 rest f e hr hb hf
      obtain ⟨f, rfl⟩ : ∃ f', f = f' + 1 := ⟨f - 1, by omega⟩
      have hquote : ∀ (d : UInt8) (x w : Bs), d ≠ 0 → isWs d = false → d ∉ x → AllWs w → skipWs r0 = d :: x ++ d :: w ++ rest →
          ∃ r, parseQuoted d (skipWs r0) = .ok (.str x, r) ∧ skipWs r = rest := by
        intro d x w hd hdw hx hw e
        refine ⟨w ++ rest, ?_, hr.skip_ws hw⟩
        have e2 : skipWs r0 = d :: (x ++ d :: (w ++ rest)) := by rw [e]; simp
        unfold parseQuoted
        rw [parseChar_eq hd, skipWs_idem, e2]
        have : cur (d :: (x ++ d :: (w ++ rest))) = d := rfl
        simp only [this, reduceIte]
        show (match strLoop d (x ++ d :: (w ++ rest)) [] with | some r => _ | none => _) = _
        rw [strLoop_spec hdw _ _ x [] rfl hx]
        rfl
      have hword : ∀ name t, IsIdent name → skipWs r0 = name ++ t → isIdent (cur t) = false →
          parseSingle n (f + 1) r0 [] = afterIdent n f (name, t) := by
        intro name t hn e ht
        have ha := (hn.start t).2
        rw [← e] at ha
        have hfc := not_ws_of_alpha ha
        rw [parseSingle_nil, if_neg hfc.2.2.1, if_neg hfc.2.2.2.1, if_neg (by rw [hfc.2.1]; decide)]
        unfold startIdent
        rw [if_pos rfl, parseIdent_of e hn ht, if_neg (show ¬ (name, t).1 = [] from hn.ne_nil)]
        rfl
      cases g with
      | dquote x w hx hw =>
        rw [parseSingle_nil, if_pos (by rw [e]; rfl)]
        exact hquote 34 x w (by decide) (by decide) hx hw e
      | squote x w hx hw =>
        have h39 : cur (skipWs r0) = 39 := by rw [e]; rfl
        rw [parseSingle_nil, if_neg (by rw [h39]; decide), if_pos h39]
        exact hquote 39 x w (by decide) (by decide) hx hw e
      | num c x hc hx =>
        have hcn := num_iff.mpr hc
        have hcur : cur (skipWs r0) = c := by rw [e]; rfl
        have hcf := num_facts hcn
        rw [parseSingle_nil, hcur, if_neg hcf.2.2.1, if_neg hcf.2.2.2, if_pos hcn]
        refine ⟨rest, ?_, hr.skip⟩
        unfold parseNumber
        rw [e, numLoop_spec hr.2.2.1 hr.1 _ (c :: x) [] rfl]
        · rfl
        · intro d hd
          rcases List.mem_cons.mp hd with hd | hd
          · rw [hd]; exact Or.inl hcn
          · rcases hx d hd with h | h
            · exact Or.inl (num_iff.mpr h)
            · exact Or.inr (ws1_iff.mpr h)
        · intro hrest
          refine ⟨by simp, ?_⟩
          cases hh : isNum ((c :: x).getLast?.getD 0) with
          | false => rfl
          | true => exact absurd hrest (hb (by unfold endsNum; exact decide_eq_true (num_iff.mp hh)))
      | bool x w hx hw =>
        rw [List.append_assoc] at e
        rw [hword x (w ++ rest) (bool_ident hx) e (hr.ident_ws hw)]
        refine ⟨w ++ rest, ?_, hr.skip_ws hw⟩
        unfold afterIdent
        rw [if_pos hx]
      | inv0 name w hn h1 h2 hw =>
        rw [List.append_assoc] at e
        rw [hword name (w ++ rest) hn e (hr.ident_ws hw)]
        refine ⟨rest, ?_, hr.skip⟩
        unfold afterIdent
        rw [if_neg (by simp [h1, h2])]
        show (if cur (skipWs (w ++ rest)) = 40 then _ else _) = _
        rw [hr.skip_ws hw, if_neg hr.2.2.2.1]
      | inv name w1 sa w2 args hn h1 h2 hw1 ga hw2 =>
        have e' : skipWs r0 = name ++ (w1 ++ 40 :: (sa ++ (w2 ++ rest))) := by rw [e]; simp
        rw [hword name _ hn e' (cur_ws_rest hw1 isIdent (fun c hc => (ws_facts hc).2.2.1) (by rfl))]
        refine ⟨w2 ++ rest, ?_, hr.skip_ws hw2⟩
        unfold afterIdent
        rw [if_neg (by simp [h1, h2])]
        show (if cur (skipWs (w1 ++ 40 :: (sa ++ (w2 ++ rest)))) = 40 then (parseArgs n f (skipWs (w1 ++ 40 :: (sa ++ (w2 ++ rest)))).tail true).bind _ else _) = _
        rw [skipWs_append hw1, skipWs_cons (by decide), cur_c, if_pos rfl]
        show (parseArgs n f (sa ++ (w2 ++ rest)) true).bind _ = _
        simp only [List.length_append, List.length_cons] at hN hf
        rw [(ih sa.length (by omega)).args args sa ga (Nat.le_refl _) (w2 ++ rest) f (by omega)]
        rfl
    have Hvalue : ∀ b v s, GValue b v s → s.length ≤ N → ∀ r0 rest f, skipWs r0 = s ++ rest → Stop rest → (b = true → rest ≠ []) →
        4 * s.length + 2 ≤ f → ∃ f' r, parseValue n f r0 [] = chainLoop n f' r v ∧ skipWs r = rest ∧ f ≤ f' + s.length + 1 := by
      intro b v s g hN r0 rest f e hr hb hf
      cases g with
      | single _ _ _ g =>
        obtain ⟨f, rfl⟩ : ∃ f', f = f' + 1 := ⟨f - 1, by omega⟩
        obtain ⟨r, h1, h2⟩ := Hsingle _ _ _ g hN r0 rest f e hr hb (by omega)
        refine ⟨f, r, ?_, h2, by omega⟩
        rw [parseValue, h1]
        rfl
      | chain b1 b2 v1 v2 s1 w s2 g1 hw g2 =>
        have hp := single_pos g2
        have e' : skipWs r0 = s1 ++ 58 :: (w ++ (s2 ++ rest)) := by rw [e]; simp
        simp only [List.length_append, List.length_cons] at hN hf ⊢
        obtain ⟨f', r, h1, h2, h3⟩ := (ih s1.length (by omega)).value b1 v1 s1 g1 (Nat.le_refl _) r0 _ f e' (stop_colon _)
          (fun _ => List.cons_ne_nil _ _) (by omega)
        obtain ⟨f2, rfl⟩ : ∃ f2, f' = f2 + 1 := ⟨f' - 1, by omega⟩
        have e2 : skipWs (w ++ (s2 ++ rest)) = s2 ++ rest := by
          rw [skipWs_append hw, skip_cur (start_single g2 rest).ws.1]
        obtain ⟨r2, h4, h5⟩ := (ih s2.length (by omega)).single _ v2 s2 g2 (Nat.le_refl _) (w ++ (s2 ++ rest)) rest f2 e2 hr hb (by omega)
        refine ⟨f2, r2, ?_, h5, by omega⟩
        rw [h1, chainLoop_eq, h2, cur_c, if_pos rfl]
        show (parseSingle n f2 (w ++ (s2 ++ rest)) []).bind _ = _
        rw [h4]
        rfl
    have Harg : ∀ k v s, GArg k v s → s.length ≤ N → ∀ r0 rest f, skipWs r0 = s ++ rest → Stop rest → cur rest ≠ 58 → rest ≠ [] →
        4 * s.length + 3 ≤ f → ∃ r, parseArg n f r0 = .ok (k, v, r) ∧ skipWs r = rest := by
      intro k v s g hN r0 rest f e hr h58 hne hf
      obtain ⟨f, rfl⟩ : ∃ f', f = f' + 1 := ⟨f - 1, by omega⟩
      rw [parseArg_eq]
      cases g with
      | pos b _ _ g =>
        cases ha : isAlpha (cur (skipWs r0)) with
        | false =>
          rw [parseIdent_none ha, if_pos rfl]
          obtain ⟨f', r, h1, h2, h3⟩ := Hvalue b v s g hN (skipWs r0) rest f (by rw [skipWs_idem, e]) hr (fun _ => hne) (by omega)
          obtain ⟨r', h4, h5⟩ := value_done (n := n) (f' := f') (v := v) h2 h58 (by omega)
          refine ⟨r', ?_, h5⟩
          show (parseValue n f (skipWs r0) []).bind _ = _
          rw [h1, h4]
          rfl
        | true =>
          obtain ⟨i1, i2, -⟩ := parseIdent_some ha
          rw [if_neg i1.ne_nil, if_neg (value_no_eq _ _ _ _ (Nat.le_refl _) g r0 rest e hr ha), parseValue_skip n f _ i1.ne_nil,
            ← parseValue_ident n f ha]
          obtain ⟨f', r, h1, h2, h3⟩ := Hvalue b v s g hN r0 rest f e hr (fun _ => hne) (by omega)
          obtain ⟨r', h4, h5⟩ := value_done (n := n) (f' := f') (v := v) h2 h58 (by omega)
          refine ⟨r', ?_, h5⟩
          rw [h1, h4]
          rfl
      | kw k w1 w2 b _ sv hk hw1 hw2 g =>
        have e' : skipWs r0 = k ++ (w1 ++ 61 :: (w2 ++ (sv ++ rest))) := by rw [e]; simp
        have hid := parseIdent_of e' hk (cur_ws_rest hw1 isIdent (fun c hc => (ws_facts hc).2.2.1) (by rfl))
        rw [hid, if_neg (show ¬ (k, _).1 = [] from hk.ne_nil)]
        show ∃ r, (if cur (skipWs (w1 ++ 61 :: (w2 ++ (sv ++ rest)))) = 61 then (parseValue n f (skipWs (w1 ++ 61 :: (w2 ++ (sv ++ rest)))).tail []).bind _ else _) = _ ∧ _
        rw [skipWs_append hw1, skipWs_cons (by decide), cur_c, if_pos rfl]
        simp only [List.length_append, List.length_cons] at hN hf
        have e2 : skipWs (w2 ++ (sv ++ rest)) = sv ++ rest := by
          rw [skipWs_append hw2, skip_cur (start_value _ _ _ _ (Nat.le_refl _) g rest).ws.1]
        obtain ⟨f', r, h1, h2, h3⟩ := (ih sv.length (by omega)).value b v sv g (Nat.le_refl _) (w2 ++ (sv ++ rest)) rest f e2 hr (fun _ => hne) (by omega)
        obtain ⟨r', h4, h5⟩ := value_done (n := n) (f' := f') (v := v) h2 h58 (by omega)
        refine ⟨r', ?_, h5⟩
        show (parseValue n f (w2 ++ (sv ++ rest)) []).bind _ = _
        rw [h1, h4]
        rfl
    have Htail : ∀ a s, GTail a s → s.length ≤ N → ∀ r0 rest f, skipWs r0 = s ++ rest → 4 * s.length + 4 ≤ f →
        parseArgs n f r0 false = .ok (a, rest) := by
      intro a s g hN r0 rest f e hf
      obtain ⟨f, rfl⟩ : ∃ f', f = f' + 1 := ⟨f - 1, by omega⟩
      rw [parseArgs_eq]
      simp only [Bool.false_eq_true, reduceIte, false_or]
      cases g with
      | close =>
        rw [e, List.singleton_append, cur_c, if_pos rfl]
        rfl
      | trailing w hw =>
        have e' : skipWs r0 = 44 :: (w ++ 41 :: rest) := by rw [e]; simp
        rw [e', cur_c, if_neg (show ¬ (44 : UInt8) = 41 by decide), if_pos rfl]
        show (if cur (skipWs (w ++ 41 :: rest)) = 41 then .ok (_, (skipWs (w ++ 41 :: rest)).tail) else _ : Res (Args × Bs)) = _
        rw [skipWs_append hw, skipWs_cons (by decide), cur_c, if_pos rfl]
        rfl
      | more w k v s t' t hw ga gt =>
        have e' : skipWs r0 = 44 :: (w ++ (s ++ (t ++ rest))) := by rw [e]; simp
        have hst := (start_arg ga (t ++ rest)).ws
        have e2 : skipWs (w ++ (s ++ (t ++ rest))) = s ++ (t ++ rest) := by rw [skipWs_append hw, skip_cur hst.1]
        obtain ⟨s1, s2, s3⟩ := stop_tail gt rest
        simp only [List.length_append, List.length_cons] at hN hf
        obtain ⟨r, h1, h2⟩ := (ih s.length (by omega)).arg k v s ga (Nat.le_refl _) _ _ f e2 s1 s2 s3 (by omega)
        have h3 := (ih t.length (by omega)).tail t' t gt (Nat.le_refl _) r rest f h2 (by omega)
        rw [e', cur_c, if_neg (show ¬ (44 : UInt8) = 41 by decide), if_pos rfl]
        show (if cur (skipWs (w ++ (s ++ (t ++ rest)))) = 41 then _ else (parseArg n f (w ++ (s ++ (t ++ rest)))).bind _) = _
        rw [e2, if_neg hst.2.1, h1]
        show (parseArgs n f r false).bind _ = _
        rw [h3]
        rfl
    refine ⟨Hsingle, ?_, Htail, Hvalue, Harg⟩
    intro a s g hN rest f hf
    obtain ⟨f, rfl⟩ : ∃ f', f = f' + 1 := ⟨f - 1, by omega⟩
    rw [parseArgs_eq]
    simp only [reduceIte, skipWs_idem, true_or]
    cases g with
    | nil w hw =>
      rw [List.append_assoc, skipWs_append hw, List.singleton_append, skipWs_cons (by decide), cur_c, if_pos rfl]
      rfl
    | cons w k v s t' t hw ga gt =>
      have hst := (start_arg ga (t ++ rest)).ws
      have e2 : skipWs (w ++ s ++ t ++ rest) = s ++ (t ++ rest) := by
        simp only [List.append_assoc]
        rw [skipWs_append hw, skip_cur hst.1]
      obtain ⟨s1, s2, s3⟩ := stop_tail gt rest
      simp only [List.length_append] at hN hf
      have ht : 0 < t.length := by cases gt <;> simp
      have hs : 0 < s.length := by
        have h := start_arg ga []
        cases s with
        | nil => exact absurd h (by unfold Start; decide)
        | cons c u => simp
      obtain ⟨r, h1, h2⟩ := (ih s.length (by omega)).arg k v s ga (Nat.le_refl _) (s ++ (t ++ rest)) _ f (skip_cur hst.1) s1 s2 s3 (by omega)
      have h3 := (ih t.length (by omega)).tail t' t gt (Nat.le_refl _) r rest f h2 (by omega)
      rw [e2, if_neg hst.2.1, if_neg hst.2.1, h1]
      show (parseArgs n f r false).bind _ = _
      rw [h3]
      rfl

end Ast
end Tdc
