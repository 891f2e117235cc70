import Verif.Spec.AlgoGrammar

namespace Tdc
namespace Ast

/-! ## whitespace and characters -/

theorem isWs_iff (c : UInt8) : isWs c = true ↔ (c = 32 ∨ c = 9 ∨ c = 10 ∨ c = 13) := by
  simp only [isWs, Bool.or_eq_true, decide_eq_true_eq]
  constructor
  · rintro (((h | h) | h) | h) <;> simp [h]
  · rintro (h | h | h | h) <;> simp [h]

theorem alpha_iff {c : UInt8} : isAlpha c = true ↔ Letter c := by
  rw [show c = UInt8.ofNat c.toNat by simp]
  have h : ∀ k, k < 256 → (isAlpha (UInt8.ofNat k) = true ↔ Letter (UInt8.ofNat k)) := by decide +kernel
  exact h c.toNat (UInt8.toNat_lt c)

theorem ident_iff {c : UInt8} : isIdent c = true ↔ (Letter c ∨ Digit c) := by
  rw [show c = UInt8.ofNat c.toNat by simp]
  have h : ∀ k, k < 256 → (isIdent (UInt8.ofNat k) = true ↔ (Letter (UInt8.ofNat k) ∨ Digit (UInt8.ofNat k))) := by decide +kernel
  exact h c.toNat (UInt8.toNat_lt c)

theorem num_iff {c : UInt8} : isNum c = true ↔ Numeric c := by
  rw [show c = UInt8.ofNat c.toNat by simp]
  have h : ∀ k, k < 256 → (isNum (UInt8.ofNat k) = true ↔ Numeric (UInt8.ofNat k)) := by decide +kernel
  exact h c.toNat (UInt8.toNat_lt c)

theorem ws1_iff {c : UInt8} : isWs c = true ↔ AllWs [c] := by
  rw [isWs_iff]
  simp [AllWs]

theorem AllWs.isWs {w : Bs} (h : AllWs w) : ∀ c ∈ w, isWs c = true := fun c hc => (isWs_iff c).mpr (h c hc)

theorem allWs_takeWhile (s : Bs) : AllWs (s.takeWhile isWs) := fun c hc => (isWs_iff c).mp (by simpa using (List.all_eq_true.mp (List.all_takeWhile (p := isWs) (l := s)) c hc))

theorem allWs_nil : AllWs [] := fun c hc => by cases hc

theorem AllWs.append {a b : Bs} (ha : AllWs a) (hb : AllWs b) : AllWs (a ++ b) := by
  intro c hc
  rcases List.mem_append.mp hc with h | h
  · exact ha c h
  · exact hb c h

theorem skipWs_append {w : Bs} (h : AllWs w) (s : Bs) : skipWs (w ++ s) = skipWs s := by
  unfold skipWs
  rw [List.dropWhile_append_of_pos h.isWs]

theorem take_skip (s : Bs) : s.takeWhile isWs ++ skipWs s = s := List.takeWhile_append_dropWhile

theorem skipWs_cases (s : Bs) : skipWs s = [] ∨ ∃ c t, skipWs s = c :: t ∧ isWs c = false := by
  cases h : skipWs s with
  | nil => exact Or.inl rfl
  | cons c t =>
    refine Or.inr ⟨c, t, rfl, ?_⟩
    have h' : s.dropWhile isWs = c :: t := h
    have := List.head_dropWhile_not isWs (l := s) (by rw [h']; exact List.cons_ne_nil _ _)
    simpa [h'] using this

theorem skipWs_cons {c : UInt8} {t : Bs} (h : isWs c = false) : skipWs (c :: t) = c :: t := by
  simp [skipWs, List.dropWhile_cons, h]

theorem skipWs_idem (s : Bs) : skipWs (skipWs s) = skipWs s := by
  rcases skipWs_cases s with h | ⟨c, t, h, hc⟩
  · rw [h]; rfl
  · rw [h, skipWs_cons hc]

theorem takeWhile_append_ws {w s : Bs} (h : AllWs w) (hs : isWs (cur s) = false) : (w ++ s).takeWhile isWs = w := by
  rw [List.takeWhile_append_of_pos h.isWs]
  cases s with
  | nil => simp
  | cons c t =>
    have : isWs c = false := hs
    simp [List.takeWhile_cons, this]

theorem skip_cur {s : Bs} (hs : isWs (cur s) = false) : skipWs s = s := by
  cases s with
  | nil => rfl
  | cons c t => exact skipWs_cons hs

theorem cur_skip (s : Bs) : isWs (cur (skipWs s)) = false := by
  rcases skipWs_cases s with h | ⟨c, t, h, hc⟩
  · rw [h]; rfl
  · rw [h]; exact hc

theorem parseChar_eq {c : UInt8} (hc : c ≠ 0) (s : Bs) :
    parseChar (· == c) s = if cur (skipWs s) = c then (true, (skipWs s).tail) else (false, skipWs s) := by
  unfold parseChar peekChar
  by_cases h : s = []
  · subst h
    have : cur (skipWs []) = 0 := rfl
    rw [this]
    have h0 : ¬ (0 : UInt8) = c := fun h => hc h.symm
    simp [skipWs, h0]
  · rw [if_neg h]
    by_cases h2 : cur (skipWs s) = c
    · simp [h2]
    · simp [h2]

theorem peek_eq {acc : UInt8 → Bool} (hc : acc 0 = false) (s : Bs) : (peekChar acc s).1 = acc (cur (skipWs s)) := by
  unfold peekChar
  by_cases h : s = []
  · subst h
    rw [if_pos rfl]
    exact hc.symm
  · rw [if_neg h]

/-- what `parse_single_value` does once the name is known -/
def afterIdent (n f : Nat) (r : Bs × Bs) : Res (Val × Bs) :=
  if r.1 = trueB ∨ r.1 = falseB then .ok (.str r.1, r.2) else
  if cur (skipWs r.2) = 40 then (parseArgs n f (skipWs r.2).tail true).bind fun a => .ok (.inv r.1 a.1, a.2)
  else .ok (.inv r.1 .nil, skipWs r.2)

theorem parseSingle_nil (n f : Nat) (s : Bs) :
    parseSingle n (f + 1) s [] =
      if cur (skipWs s) = 34 then parseQuoted 34 (skipWs s)
      else if cur (skipWs s) = 39 then parseQuoted 39 (skipWs s)
      else if isNum (cur (skipWs s)) = true then parseNumber n (skipWs s)
      else (startIdent s []).bind (afterIdent n f) := by
  rw [parseSingle, peek_eq (by rfl), peek_eq (by rfl), peek_eq (by rfl), skipWs_idem]
  simp only [true_and, beq_iff_eq]
  split
  · rfl
  split
  · rfl
  split
  · rfl
  congr 1
  funext r
  unfold afterIdent
  split
  · rfl
  · rw [parseChar_eq (by decide), skipWs_idem]
    split <;> simp_all

theorem parseSingle_id (n f : Nat) (s ident : Bs) (h : ident ≠ []) :
    parseSingle n (f + 1) s ident = afterIdent n f (ident, skipWs s) := by
  rw [parseSingle]
  simp only [h, false_and, if_false, startIdent]
  show (if _ then _ else _) = _
  unfold afterIdent
  split
  · rfl
  · rw [parseChar_eq (by decide), skipWs_idem]
    split <;> simp_all

theorem parseArgs_eq (n f : Nat) (s : Bs) (first : Bool) :
    parseArgs n (f + 1) s first =
      if cur (skipWs s) = 41 then .ok (.nil, (skipWs s).tail)
      else if first = true ∨ cur (skipWs s) = 44 then
        if cur (skipWs (if first then skipWs s else (skipWs s).tail)) = 41 then
          .ok (.nil, (skipWs (if first then skipWs s else (skipWs s).tail)).tail)
        else (parseArg n f (if first then skipWs s else (skipWs s).tail)).bind fun a =>
          (parseArgs n f a.2.2 false).bind fun r => .ok (.cons a.1 a.2.1 r.1, r.2)
      else .error .throw := by
  rw [parseArgs]
  simp only [parseChar_eq (show (41 : UInt8) ≠ 0 by decide), parseChar_eq (show (44 : UInt8) ≠ 0 by decide), skipWs_idem]
  by_cases h1 : cur (skipWs s) = 41
  · simp [h1]
  · by_cases h2 : cur (skipWs s) = 44
    · cases first
      · by_cases h3 : cur (skipWs (skipWs s).tail) = 41 <;> simp [h2, h3]
      · simp [h2, skipWs_idem]
    · cases first
      · simp [h1, h2]
      · simp [h1, h2, skipWs_idem]

theorem chainLoop_eq (n f : Nat) (s : Bs) (v : Val) :
    chainLoop n (f + 1) s v =
      if cur (skipWs s) = 58 then (parseSingle n f (skipWs s).tail []).bind fun r => chainLoop n f r.2 (mkChain v r.1)
      else .ok (v, skipWs s) := by
  rw [chainLoop]
  simp only [parseChar_eq (show (58 : UInt8) ≠ 0 by decide)]
  split <;> simp_all

theorem parseArg_eq (n f : Nat) (s : Bs) :
    parseArg n (f + 1) s =
      if (parseIdent s).1 = [] then (parseValue n f (parseIdent s).2 []).bind fun r => .ok (none, r)
      else if cur (skipWs (parseIdent s).2) = 61 then
        (parseValue n f (skipWs (parseIdent s).2).tail []).bind fun r => .ok (some (parseIdent s).1, r)
      else (parseValue n f (skipWs (parseIdent s).2) (parseIdent s).1).bind fun r => .ok (none, r) := by
  rw [parseArg]
  simp only [parseChar_eq (show (61 : UInt8) ≠ 0 by decide)]
  split
  · rfl
  split <;> simp_all

/-! ## identifiers, strings and numbers -/

theorem not_ws_of_alpha {c : UInt8} (h : isAlpha c = true) : isWs c = false ∧ isNum c = false ∧ c ≠ 34 ∧ c ≠ 39 ∧ isIdent c = true := by
  revert h
  have : ∀ c : UInt8, isAlpha c = true → isWs c = false ∧ isNum c = false ∧ c ≠ 34 ∧ c ≠ 39 ∧ isIdent c = true := by
    intro c
    rw [show c = UInt8.ofNat c.toNat by simp]
    have h : ∀ k, k < 256 → isAlpha (UInt8.ofNat k) = true → isWs (UInt8.ofNat k) = false ∧ isNum (UInt8.ofNat k) = false ∧
      UInt8.ofNat k ≠ 34 ∧ UInt8.ofNat k ≠ 39 ∧ isIdent (UInt8.ofNat k) = true := by decide +kernel
    exact h c.toNat (UInt8.toNat_lt c)
  exact this c

theorem ws_facts {c : UInt8} (h : isWs c = true) : isNum c = false ∧ isAlpha c = false ∧ isIdent c = false ∧ c ≠ 34 ∧ c ≠ 39 := by
  rcases (isWs_iff c).mp h with h | h | h | h <;> subst h <;> decide

theorem num_facts {c : UInt8} (h : isNum c = true) : isWs c = false ∧ isAlpha c = false ∧ c ≠ 34 ∧ c ≠ 39 := by
  have : ∀ c : UInt8, isNum c = true → isWs c = false ∧ isAlpha c = false ∧ c ≠ 34 ∧ c ≠ 39 := by
    intro c
    rw [show c = UInt8.ofNat c.toNat by simp]
    have h : ∀ k, k < 256 → isNum (UInt8.ofNat k) = true → isWs (UInt8.ofNat k) = false ∧ isAlpha (UInt8.ofNat k) = false ∧
      UInt8.ofNat k ≠ 34 ∧ UInt8.ofNat k ≠ 39 := by decide +kernel
    exact h c.toNat (UInt8.toNat_lt c)
  exact this c h

theorem parseIdent_word {w name t : Bs} (hw : AllWs w) (hn : IsIdent name) (ht : isIdent (cur t) = false) :
    parseIdent (w ++ name ++ t) = (name, t) := by
  obtain ⟨c, x, rfl, hc, hx⟩ := hn
  replace hc := alpha_iff.mpr hc
  replace hx : ∀ d ∈ x, isIdent d = true := fun d hd => ident_iff.mpr (hx d hd)
  unfold parseIdent
  rw [List.append_assoc, skipWs_append hw, List.cons_append, skipWs_cons (not_ws_of_alpha hc).1]
  show (if isAlpha c = true then _ else _) = _
  rw [if_pos hc, List.takeWhile_append_of_pos hx, List.dropWhile_append_of_pos hx]
  cases t with
  | nil => simp
  | cons d t =>
    have : isIdent d = false := ht
    simp [List.takeWhile_cons, List.dropWhile_cons, this]

theorem parseIdent_none {s : Bs} (h : isAlpha (cur (skipWs s)) = false) : parseIdent s = ([], skipWs s) := by
  unfold parseIdent
  cases e : skipWs s with
  | nil => rfl
  | cons c t =>
    rw [e] at h
    have h : isAlpha c = false := h
    show (if isAlpha c = true then _ else _) = _
    rw [if_neg (by rw [h]; decide)]

theorem parseIdent_some {s : Bs} (h : isAlpha (cur (skipWs s)) = true) :
    IsIdent (parseIdent s).1 ∧ skipWs s = (parseIdent s).1 ++ (parseIdent s).2 ∧ isIdent (cur (parseIdent s).2) = false := by
  unfold parseIdent
  cases e : skipWs s with
  | nil => rw [e] at h; exact absurd h (by decide)
  | cons c t =>
    rw [e] at h
    have h : isAlpha c = true := h
    simp only [if_pos h]
    refine ⟨⟨c, _, rfl, alpha_iff.mp h, fun d hd => ident_iff.mp (by simpa using (List.all_eq_true.mp (List.all_takeWhile (p := isIdent) (l := t)) d hd))⟩, ?_, ?_⟩
    · show c :: t = c :: _ ++ _
      rw [List.cons_append, List.takeWhile_append_dropWhile]
    · show isIdent (cur (t.dropWhile isIdent)) = false
      cases e2 : t.dropWhile isIdent with
      | nil => rfl
      | cons d u =>
        have := List.head_dropWhile_not isIdent (l := t) (by rw [e2]; exact List.cons_ne_nil _ _)
        simpa [e2, cur] using this

theorem strLoop_spec {d : UInt8} (hd : isWs d = false) (t : Bs) : ∀ k (x acc : Bs), x.length = k → d ∉ x →
    strLoop d (x ++ d :: t) acc = some (acc ++ x, t) := by
  intro k
  induction k using Nat.strongRecOn with
  | _ k ih =>
    intro x acc hk hx
    rw [strLoop, dif_neg (by simp)]
    rcases skipWs_cases x with h | ⟨c, y, h, hc⟩
    · have hx2 : x.takeWhile isWs = x := by
        have := take_skip x
        rwa [h, List.append_nil] at this
      have hw : AllWs x := hx2 ▸ allWs_takeWhile x
      rw [skipWs_append hw, skipWs_cons hd, takeWhile_append_ws hw (s := d :: t) hd]
      exact if_pos rfl
    · have e : x = x.takeWhile isWs ++ c :: y := by rw [← h, take_skip]
      have hw := allWs_takeWhile x
      generalize x.takeWhile isWs = w at e hw
      subst e
      have hcd : c ≠ d := by
        intro h
        apply hx
        rw [h]
        simp
      rw [List.append_assoc, skipWs_append hw, List.cons_append, skipWs_cons hc, takeWhile_append_ws hw (s := c :: (y ++ d :: t)) hc]
      show (if c = d then _ else _) = _
      rw [if_neg hcd]
      show strLoop d (y ++ d :: t) (acc ++ w ++ [c]) = _
      rw [ih y.length (by rw [← hk]; simp; omega) y _ rfl (fun h => hx (by simp [h]))]
      simp

theorem strLoop_sound {d : UInt8} (hd : d ≠ 0) (hdw : isWs d = false) : ∀ k (s acc y r : Bs), s.length = k → strLoop d s acc = some (y, r) →
    ∃ x, y = acc ++ x ∧ s = x ++ d :: r ∧ d ∉ x := by
  intro k
  induction k using Nat.strongRecOn with
  | _ k ih =>
    intro s acc y r hk h
    rw [strLoop] at h
    split at h
    · exact absurd h (by simp)
    rename_i hne
    rcases skipWs_cases s with e | ⟨c, u, e, hc⟩
    · rw [e] at h
      rw [if_neg (show ¬ cur [] = d from fun h => hd h.symm)] at h
      rw [strLoop, dif_pos (show ([] : Bs).tail = [] from rfl)] at h
      exact absurd h (by simp)
    · have es : s = s.takeWhile isWs ++ c :: u := by rw [← e, take_skip]
      have hw := allWs_takeWhile s
      have hdn : d ∉ s.takeWhile isWs := by
        intro hm
        have := hw.isWs d hm
        rw [hdw] at this
        exact absurd this (by decide)
      rw [e] at h
      generalize s.takeWhile isWs = w at es hw h hdn
      by_cases hcd : c = d
      · rw [if_pos (show cur (c :: u) = d from hcd)] at h
        simp only [Option.some.injEq, Prod.mk.injEq] at h
        refine ⟨w, h.1.symm, ?_, hdn⟩
        rw [es, ← h.2, hcd]
        rfl
      · rw [if_neg (show ¬ cur (c :: u) = d from hcd)] at h
        have hlen : u.length < k := by rw [← hk, es]; simp; omega
        obtain ⟨x, e1, e2, e3⟩ := ih u.length hlen u _ y r rfl h
        refine ⟨w ++ c :: x, ?_, ?_, ?_⟩
        · rw [e1]; simp
        · rw [es, e2]; simp
        · simp only [List.mem_append, List.mem_cons, not_or]
          exact ⟨hdn, fun h => hcd h.symm, e3⟩

theorem numLoop_spec {t : Bs} (h1 : isNum (cur t) = false) (h2 : isWs (cur t) = false) : ∀ k (x acc : Bs), x.length = k →
    (∀ d ∈ x, isNum d = true ∨ isWs d = true) → (t = [] → x ≠ [] ∧ isNum (x.getLast?.getD 0) = false) →
    numLoop (x ++ t) acc = some (acc ++ x, t) := by
  intro k
  induction k using Nat.strongRecOn with
  | _ k ih =>
    intro x acc hk hx hl
    have hne : x ++ t ≠ [] := by
      intro h
      obtain ⟨ha, hb⟩ := List.append_eq_nil_iff.mp h
      exact (hl hb).1 ha
    rw [numLoop, dif_neg hne]
    rcases skipWs_cases x with h | ⟨c, y, h, hc⟩
    · have hx2 : x.takeWhile isWs = x := by
        have := take_skip x
        rwa [h, List.append_nil] at this
      have hw : AllWs x := hx2 ▸ allWs_takeWhile x
      rw [skipWs_append hw, skip_cur h2, takeWhile_append_ws hw h2, if_pos h1]
    · have e : x = x.takeWhile isWs ++ c :: y := by rw [← h, take_skip]
      have hw := allWs_takeWhile x
      generalize x.takeWhile isWs = w at e hw
      subst e
      have hcn : isNum c = true := by
        rcases hx c (by simp) with h | h
        · exact h
        · rw [hc] at h; exact absurd h (by decide)
      rw [List.append_assoc, skipWs_append hw, List.cons_append, skipWs_cons hc, takeWhile_append_ws hw (s := c :: (y ++ t)) hc]
      show (if isNum c = false then _ else _) = _
      rw [if_neg (by rw [hcn]; decide)]
      show numLoop (y ++ t) (acc ++ w ++ [c]) = _
      rw [ih y.length (by rw [← hk]; simp; omega) y _ rfl (fun d hd => hx d (by simp [hd]))]
      · simp
      · intro ht
        have h3 := (hl ht).2
        cases y with
        | nil => rw [List.getLast?_append] at h3; simp [hcn] at h3
        | cons d u =>
          refine ⟨by simp, ?_⟩
          rw [List.getLast?_append] at h3
          simpa [List.getLast?_cons] using h3

theorem numLoop_sound : ∀ k (s acc y r : Bs), s.length = k → numLoop s acc = some (y, r) →
    ∃ x, y = acc ++ x ∧ s = x ++ r ∧ (∀ d ∈ x, isNum d = true ∨ isWs d = true) ∧ isNum (cur r) = false ∧ skipWs r = r := by
  intro k
  induction k using Nat.strongRecOn with
  | _ k ih =>
    intro s acc y r hk h
    rw [numLoop] at h
    split at h
    · exact absurd h (by simp)
    rename_i hne
    have hw := allWs_takeWhile s
    split at h
    · rename_i hcn
      simp only [Option.some.injEq, Prod.mk.injEq] at h
      refine ⟨s.takeWhile isWs, h.1.symm, ?_, fun d hd => Or.inr (hw.isWs d hd), ?_, ?_⟩
      · rw [← h.2, take_skip]
      · rw [← h.2]; exact hcn
      · rw [← h.2, skipWs_idem]
    · rename_i hcn
      rcases skipWs_cases s with e | ⟨c, u, e, hc⟩
      · rw [e] at hcn; exact absurd rfl hcn
      · have es : s = s.takeWhile isWs ++ c :: u := by rw [← e, take_skip]
        rw [e] at h hcn
        have hcn : isNum c = true := by
          cases hh : isNum c with
          | true => rfl
          | false => exact absurd hh hcn
        generalize s.takeWhile isWs = w at es hw h
        have hlen : u.length < k := by rw [← hk, es]; simp; omega
        obtain ⟨x, e1, e2, e3, e4, e5⟩ := ih u.length hlen u _ y r rfl h
        refine ⟨w ++ c :: x, ?_, ?_, ?_, e4, e5⟩
        · rw [e1]; simp
        · rw [es, e2]; simp
        · intro d hd
          rcases List.mem_append.mp hd with hd | hd
          · exact Or.inr (hw.isWs d hd)
          · rcases List.mem_cons.mp hd with hd | hd
            · exact Or.inl (hd ▸ hcn)
            · exact e3 d hd

theorem numLoop_none : ∀ k (s acc : Bs), s.length = k → numLoop s acc = none → ∀ d ∈ s, isNum d = true ∨ isWs d = true := by
  intro k
  induction k using Nat.strongRecOn with
  | _ k ih =>
    intro s acc hk h
    rw [numLoop] at h
    split at h
    · rename_i h0
      subst h0
      intro d hd
      cases hd
    split at h
    · exact absurd h (by simp)
    rename_i hcn
    have hw := allWs_takeWhile s
    rcases skipWs_cases s with e | ⟨c, u, e, hc⟩
    · rw [e] at hcn; exact absurd rfl hcn
    · have es : s = s.takeWhile isWs ++ c :: u := by rw [← e, take_skip]
      rw [e] at h hcn
      have hcn : isNum c = true := by
        cases hh : isNum c with
        | true => rfl
        | false => exact absurd hh hcn
      generalize s.takeWhile isWs = w at es hw h
      have hlen : u.length < k := by rw [← hk, es]; simp; omega
      have := ih u.length hlen u _ rfl h
      intro d hd
      rw [es] at hd
      rcases List.mem_append.mp hd with hd | hd
      · exact Or.inr (hw.isWs d hd)
      · rcases List.mem_cons.mp hd with hd | hd
        · exact Or.inl (hd ▸ hcn)
        · exact this d hd

end Ast
end Tdc
