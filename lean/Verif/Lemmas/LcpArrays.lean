import Verif.Lemmas.LcpGreedy

namespace Tdc
namespace LC

variable {t : List UInt8} {A : TextArrays} {th : Nat}

theorem getD_set_self {l : List Nat} {i v : Nat} (h : i < l.length) : (l.set i v).getD i 0 = v := by
  rw [List.getD_eq_getElem?_getD, List.getElem?_set_self h]; rfl

theorem getD_set_ne {l : List Nat} {i j v : Nat} (h : i ≠ j) : (l.set i v).getD j 0 = l.getD j 0 := by
  rw [List.getD_eq_getElem?_getD, List.getElem?_set_ne h, List.getD_eq_getElem?_getD]

theorem getElem?_of_lt {l : List Nat} {i : Nat} (h : i < l.length) : l[i]? = some (l.getD i 0) := by
  rw [List.getElem?_eq_getElem h, List.getD_eq_getElem?_getD, List.getElem?_eq_getElem h]; rfl

/-- the rank of a text position -/
theorem ArraysOk.rank (hA : ArraysOk t A) {p : Nat} (hp : p < t.length) : ∃ i, i < t.length ∧ A.isa[p]? = some i ∧ A.sa[i]? = some p := by
  obtain ⟨i, hi, he⟩ := hA.isSA.idx hp
  exact ⟨i, hi, hA.isa i p he, he⟩

theorem eraseLoop_spec (hA : ArraysOk t A) (n : Nat) : ∀ (p : Nat) (lcp : List Nat), p + n ≤ t.length → lcp.length = t.length →
    ∃ lcp', eraseLoop A.isa p n lcp = .ok lcp' ∧ lcp'.length = t.length ∧
      ∀ i q : Nat, A.sa[i]? = some q → lcp'.getD i 0 = if p ≤ q ∧ q < p + n then 0 else lcp.getD i 0 := by
  induction n with
  | zero =>
    intro p lcp _ hl
    refine ⟨lcp, rfl, hl, ?_⟩
    intro i q _
    rw [if_neg (by omega)]
  | succ n ih =>
    intro p lcp hp hl
    obtain ⟨r, hr, e1, e2⟩ := ArraysOk.rank hA (p := p) (by omega)
    obtain ⟨lcp', e3, l3, h3⟩ := ih (p + 1) (lcp.set r 0) (by omega) (by simpa using hl)
    refine ⟨lcp', ?_, l3, ?_⟩
    · rw [eraseLoop, vget_ok e1]
      simp only
      rw [vset_ok 0 (by omega)]
      exact e3
    · intro i q hi
      rw [h3 i q hi]
      by_cases hri : r = i
      · subst hri
        rw [e2] at hi
        cases hi
        rw [if_neg (by omega), if_pos (by omega), getD_set_self (by omega)]
      · rw [getD_set_ne hri]
        have : q ≠ p := by
          rintro rfl
          exact hri (hA.isSA.inj e2 hi)
        by_cases hc : p ≤ q ∧ q < p + (n + 1)
        · rw [if_pos hc, if_pos (by omega)]
        · rw [if_neg hc, if_neg (by omega)]

theorem clipLoop_spec (hA : ArraysOk t A) (p : Nat) (hpl : p ≤ t.length) (n : Nat) : ∀ (k : Nat) (lcp : List Nat), k + n ≤ p → lcp.length = t.length →
    ∃ lcp', clipLoop A.isa p n k lcp = .ok lcp' ∧ lcp'.length = t.length ∧
      ∀ i q : Nat, A.sa[i]? = some q → lcp'.getD i 0 = if q < p ∧ k < p - q ∧ p - q ≤ k + n then min (p - q) (lcp.getD i 0) else lcp.getD i 0 := by
  induction n with
  | zero =>
    intro k lcp _ hl
    refine ⟨lcp, rfl, hl, ?_⟩
    intro i q _
    rw [if_neg (by omega)]
  | succ n ih =>
    intro k lcp hp hl
    obtain ⟨r, hr, e1, e2⟩ := ArraysOk.rank hA (p := p - k - 1) (by omega)
    obtain ⟨lcp', e3, l3, h3⟩ := ih (k + 1) (lcp.set r (min (k + 1) (lcp.getD r 0))) (by omega) (by simpa using hl)
    refine ⟨lcp', ?_, l3, ?_⟩
    · rw [clipLoop, vget_ok e1]
      simp only
      rw [vget_ok (getElem?_of_lt (by omega))]
      simp only
      rw [vset_ok _ (by omega)]
      exact e3
    · intro i q hi
      rw [h3 i q hi]
      by_cases hri : r = i
      · subst hri
        rw [e2] at hi
        cases hi
        rw [if_neg (by omega), if_pos (by omega), getD_set_self (by omega)]
        congr 1
        omega
      · rw [getD_set_ne hri]
        have : q ≠ p - k - 1 := by
          rintro rfl
          exact hri (hA.isSA.inj e2 hi)
        by_cases hc : q < p ∧ k < p - q ∧ p - q ≤ k + (n + 1)
        · rw [if_pos hc, if_pos (by omega)]
        · rw [if_neg hc, if_neg (by omega)]

/-- `arraysFactor`: exactly the cut -/
theorem arraysFactor_spec (hA : ArraysOk t A) (hs : Sentinel t) {idx len p s : Nat} {st : AState} (hl : st.lcp.length = t.length)
    (hp : A.sa[idx + 1]? = some p) (hsrc : A.sa[idx]? = some s) (hlen : len ≤ A.lcp.getD (idx + 1) 0) :
    ∃ lcp', arraysFactor A (idx + 1) len st = .ok { st with lcp := lcp', fs := st.fs ++ [⟨p, s, len⟩] } ∧ lcp'.length = t.length ∧
      ∀ i q : Nat, A.sa[i]? = some q → lcp'.getD i 0 = cut p len q (st.lcp.getD i 0) := by
  rw [ArraysOk.lcpD hA hp hsrc] at hlen
  have hb := (pred_bounds hs hA.isSA (f := ⟨p, s, len⟩) ⟨⟨idx, hp, hsrc⟩, hlen⟩).2
  simp only at hb
  obtain ⟨l1, e1, n1, h1⟩ := eraseLoop_spec hA len p st.lcp (by omega) hl
  obtain ⟨l2, e2, n2, h2⟩ := clipLoop_spec hA p (by omega) (min len p) 0 l1 (by omega) n1
  refine ⟨l2, ?_, n2, ?_⟩
  · rw [arraysFactor, if_neg (by omega), vget_ok hp, Nat.add_sub_cancel, vget_ok hsrc]
    simp only [e1, e2]
  · intro i q hi
    rw [h2 i q hi, h1 i q hi]
    unfold cut
    by_cases ha : p ≤ q ∧ q < p + len
    · simp only [ha, if_true, and_self]; rw [if_neg (by omega)]
    · rw [if_neg ha]
      by_cases hb : q < p ∧ p - q ≤ len
      · rw [if_pos (by omega), if_pos hb, if_neg ha]
      · rw [if_neg (by omega), if_neg hb]
        simp only [ha, if_false]

/-- the invariant of ArraysComp while the column for `m` is processed; `rest` is the rest of the column -/
structure AInv (t : List UInt8) (A : TextArrays) (th mx m : Nat) (rest : List Nat) (st : AState) : Prop where
  ginv : GInv A th st.fs (fun i => st.lcp.getD i 0)
  pre : LcpPrefix t A.sa th [] st.fs
  len : st.lcp.length = t.length
  clen : st.cand.length = mx + 1 - th
  max : ∀ i : Nat, i < t.length → st.lcp.getD i 0 ≤ m
  mem : ∀ i ∈ rest, 1 ≤ i ∧ i < t.length
  cmem : ∀ (c : Nat) (l : List Nat), st.cand[c]? = some l → ∀ i ∈ l, 1 ≤ i ∧ i < t.length
  find : ∀ i : Nat, i < t.length → th ≤ st.lcp.getD i 0 → i ∈ rest ∨
    ∃ (c : Nat) (l : List Nat), c + th < m ∧ st.cand[c]? = some l ∧ i ∈ l ∧ st.lcp.getD i 0 ≤ c + th

theorem pushCand_spec {cand : List (List Nat)} {c i : Nat} (h : c < cand.length) :
    ∃ cand', pushCand cand c i = .ok cand' ∧ cand'.length = cand.length ∧ cand'[c]? = some (cand[c] ++ [i]) ∧
      ∀ d : Nat, d ≠ c → cand'[d]? = cand[d]? := by
  refine ⟨cand.set c (cand[c] ++ [i]), ?_, by simp, set_get_self _ h, ?_⟩
  · rw [pushCand, vget_ok (List.getElem?_eq_getElem h)]
    exact vset_ok _ h
  · intro d hd
    rw [List.getElem?_set_ne (Ne.symm hd)]

theorem arraysStep_spec (hA : ArraysOk t A) (hs : Sentinel t) (hth : 1 ≤ th) {mx m idx : Nat} {rest : List Nat} {st : AState} (hmx : m ≤ mx) (hm : th ≤ m)
    (h : AInv t A th mx m (idx :: rest) st) : ∃ st', arraysStep A th m st idx = .ok st' ∧ AInv t A th mx m rest st' := by
  obtain ⟨h1, h2⟩ := h.mem idx (by simp)
  rw [arraysStep, vget_ok (getElem?_of_lt (by rw [h.len]; exact h2))]
  simp only
  split
  · rename_i hlt
    split
    · rename_i hth'
      refine ⟨st, rfl, ⟨h.ginv, h.pre, h.len, h.clen, h.max, fun i hi => h.mem i (by simp [hi]), h.cmem, ?_⟩⟩
      intro i hi hle
      rcases h.find i hi hle with hf | hf
      · rcases List.mem_cons.mp hf with rfl | hf
        · omega
        · exact Or.inl hf
      · exact Or.inr hf
    · rename_i hth'
      have hc : st.lcp.getD idx 0 - th < st.cand.length := by rw [h.clen]; omega
      obtain ⟨cand', e, l1, g1, g2⟩ := pushCand_spec (i := idx) hc
      refine ⟨{ st with cand := cand' }, by simp only [e], ⟨h.ginv, h.pre, h.len, by show cand'.length = _; rw [l1, h.clen], h.max, fun i hi => h.mem i (by simp [hi]), ?_, ?_⟩⟩
      · intro c l hcl i hi
        by_cases hce : c = st.lcp.getD idx 0 - th
        · subst hce
          have hcl : cand'[st.lcp.getD idx 0 - th]? = some l := hcl
          rw [g1] at hcl
          cases hcl
          rcases List.mem_append.mp hi with hi | hi
          · exact h.cmem _ _ (List.getElem?_eq_getElem hc) i hi
          · rw [List.mem_singleton] at hi; subst hi; exact ⟨h1, h2⟩
        · have hcl : cand'[c]? = some l := hcl
          rw [g2 c hce] at hcl
          exact h.cmem c l hcl i hi
      · intro i hi hle
        have key : ∀ (c : Nat) (l : List Nat), c + th < m → st.cand[c]? = some l → i ∈ l → st.lcp.getD i 0 ≤ c + th →
            ∃ (c : Nat) (l : List Nat), c + th < m ∧ cand'[c]? = some l ∧ i ∈ l ∧ st.lcp.getD i 0 ≤ c + th := by
          intro c l a b d e
          by_cases hce : c = st.lcp.getD idx 0 - th
          · subst hce
            rw [List.getElem?_eq_getElem hc] at b
            cases b
            exact ⟨_, _, a, g1, List.mem_append_left _ d, e⟩
          · exact ⟨c, l, a, by rw [g2 c hce]; exact b, d, e⟩
        rcases h.find i hi hle with hf | ⟨c, l, a, b, d, e⟩
        · rcases List.mem_cons.mp hf with rfl | hf
          · exact Or.inr ⟨_, _, by omega, g1, List.mem_append_right _ (by simp), by show st.lcp.getD i 0 ≤ _; omega⟩
          · exact Or.inl hf
        · exact Or.inr (key c l a b d e)
  · rename_i hge
    have hmax := h.max idx h2
    have hv : st.lcp.getD idx 0 = m := by omega
    cases idx with
    | zero => omega
    | succ k =>
      obtain ⟨p, hp, hpl⟩ := hA.isSA.get (k := k + 1) h2
      obtain ⟨s, hsrc, hsl⟩ := hA.isSA.get (k := k) (by omega)
      obtain ⟨lcp', e, n1, hcut⟩ := arraysFactor_spec hA hs h.len hp hsrc (h.ginv.le (k + 1))
      have hsal := hA.isSA.length
      have hcut_le : ∀ i, i < t.length → lcp'.getD i 0 ≤ st.lcp.getD i 0 := by
        intro i hi
        obtain ⟨q, hq, -⟩ := hA.isSA.get hi
        rw [hcut i q hq]
        exact cut_le _ _ _ _
      refine ⟨_, e, ⟨?_, ?_, n1, h.clen, ?_, fun i hi => h.mem i (by simp [hi]), h.cmem, ?_⟩⟩
      · refine h.ginv.step hth ?_ ?_ ?_ ?_
        · intro i hi; rw [hv]; exact h.max i (by omega)
        · intro i hi
          show lcp'.getD i 0 ≤ _
          rw [List.getD_eq_getElem?_getD, List.getElem?_eq_none (by omega)]
          exact Nat.zero_le _
        · intro i q hq
          show lcp'.getD i 0 ≤ _
          exact Nat.le_of_eq (hcut i q hq)
        · intro i q hq _
          exact hcut i q hq
      · refine LcpPrefix.snoc _ _ _ h.pre ?_
        refine h.ginv.greedy hA hp hsrc (by show th ≤ st.lcp.getD (k + 1) 0; omega) ?_
        intro i hi
        show st.lcp.getD i 0 ≤ st.lcp.getD (k + 1) 0
        rw [hv]; exact h.max i (by omega)
      · intro i hi
        exact Nat.le_trans (hcut_le i hi) (h.max i hi)
      · intro i hi hle
        have hle' : th ≤ lcp'.getD i 0 := hle
        have h3 := hcut_le i hi
        rcases h.find i hi (by omega) with hf | ⟨c, l, a, b, d, e⟩
        · rcases List.mem_cons.mp hf with rfl | hf
          · rw [hcut _ p hp] at hle'
            unfold cut at hle'
            rw [if_pos (by omega)] at hle'
            omega
          · exact Or.inl hf
        · exact Or.inr ⟨c, l, a, b, d, by show lcp'.getD i 0 ≤ _; omega⟩

theorem arraysFold_spec (hA : ArraysOk t A) (hs : Sentinel t) (hth : 1 ≤ th) {mx m : Nat} (hmx : m ≤ mx) (hm : th ≤ m) (rest : List Nat) :
    ∀ st : AState, AInv t A th mx m rest st → ∃ st', rest.foldlM (arraysStep A th m) st = .ok st' ∧ AInv t A th mx m [] st' := by
  induction rest with
  | nil => intro st h; exact ⟨st, rfl, h⟩
  | cons idx rest ih =>
    intro st h
    obtain ⟨st1, e1, h1⟩ := arraysStep_spec hA hs hth hmx hm h
    obtain ⟨st2, e2, h2⟩ := ih st1 h1
    refine ⟨st2, ?_, h2⟩
    rw [foldlM_cons_ok e1]
    exact e2

/-- between two columns: everything that is left is in a column up to `m` -/
structure AOut (t : List UInt8) (A : TextArrays) (th mx m : Nat) (st : AState) : Prop where
  ginv : GInv A th st.fs (fun i => st.lcp.getD i 0)
  pre : LcpPrefix t A.sa th [] st.fs
  len : st.lcp.length = t.length
  clen : st.cand.length = mx + 1 - th
  max : ∀ i : Nat, i < t.length → st.lcp.getD i 0 ≤ m
  cmem : ∀ (c : Nat) (l : List Nat), st.cand[c]? = some l → ∀ i ∈ l, 1 ≤ i ∧ i < t.length
  find : ∀ i : Nat, i < t.length → th ≤ st.lcp.getD i 0 → ∃ (c : Nat) (l : List Nat), c + th ≤ m ∧ st.cand[c]? = some l ∧ i ∈ l ∧ st.lcp.getD i 0 ≤ c + th

theorem arraysCol_spec (hA : ArraysOk t A) (hs : Sentinel t) (hth : 1 ≤ th) {mx m : Nat} (hmx : m ≤ mx) (hm : th ≤ m) {st : AState}
    (h : AOut t A th mx m st) : ∃ st', arraysCol A th m st = .ok st' ∧ AOut t A th mx (m - 1) st' := by
  have hc : m - th < st.cand.length := by rw [h.clen]; omega
  have hi : AInv t A th mx m st.cand[m - th] st := by
    refine ⟨h.ginv, h.pre, h.len, h.clen, h.max, h.cmem _ _ (List.getElem?_eq_getElem hc), h.cmem, ?_⟩
    intro i hi hle
    obtain ⟨c, l, a, b, d, e⟩ := h.find i hi hle
    by_cases hcm : c + th = m
    · left
      obtain rfl : c = m - th := by omega
      rw [List.getElem?_eq_getElem hc] at b
      cases b
      exact d
    · exact Or.inr ⟨c, l, by omega, b, d, e⟩
  obtain ⟨st', e, h'⟩ := arraysFold_spec hA hs hth hmx hm _ st hi
  refine ⟨{ st' with cand := st'.cand.set (m - th) [] }, ?_, ⟨h'.ginv, h'.pre, h'.len, ?_, ?_, ?_, ?_⟩⟩
  · rw [arraysCol, vget_ok (List.getElem?_eq_getElem hc)]
    simp only [e]
  · show (st'.cand.set _ _).length = _
    rw [List.length_set, h'.clen]
  · intro i hi
    show st'.lcp.getD i 0 ≤ m - 1
    by_cases hle : th ≤ st'.lcp.getD i 0
    · rcases h'.find i hi hle with hf | ⟨c, l, a, b, d, e⟩
      · simp at hf
      · omega
    · omega
  · intro c l hcl i hi
    have hcl : (st'.cand.set (m - th) [])[c]? = some l := hcl
    by_cases hce : m - th = c
    · subst hce
      rw [set_get_self _ (by rw [h'.clen]; omega)] at hcl
      cases hcl
      simp at hi
    · rw [List.getElem?_set_ne hce] at hcl
      exact h'.cmem c l hcl i hi
  · intro i hi hle
    rcases h'.find i hi hle with hf | ⟨c, l, a, b, d, e⟩
    · simp at hf
    · refine ⟨c, l, by omega, ?_, d, e⟩
      show (st'.cand.set (m - th) [])[c]? = some l
      rw [List.getElem?_set_ne (by omega)]
      exact b

theorem arraysLoop_spec (hA : ArraysOk t A) (hs : Sentinel t) (hth : 1 ≤ th) {mx : Nat} (m : Nat) : ∀ st : AState, m ≤ mx → AOut t A th mx m st →
    ∃ st', arraysLoop A th m st = .ok st' ∧ LcpGreedy t A.sa th [] st'.fs := by
  have fin : ∀ (m : Nat) (st : AState), m < th → AOut t A th mx m st → LcpGreedy t A.sa th [] st.fs := by
    intro m st hm h
    refine LcpPrefix.done _ _ h.pre (h.ginv.done hA ?_)
    intro i hi
    have := h.max i (by rw [hA.isSA.length] at hi; exact hi)
    show st.lcp.getD i 0 < th
    omega
  induction m with
  | zero =>
    intro st _ h
    exact ⟨st, by rw [arraysLoop, if_neg (by omega)], fin 0 st (by omega) h⟩
  | succ m ih =>
    intro st hmx h
    by_cases hm : th ≤ m + 1
    · obtain ⟨st1, e1, h1⟩ := arraysCol_spec hA hs hth hmx hm h
      obtain ⟨st2, e2, h2⟩ := ih st1 (by omega) h1
      exact ⟨st2, by rw [arraysLoop, if_pos hm, e1]; exact e2, h2⟩
    · exact ⟨st, by rw [arraysLoop, if_neg (by omega)], fin (m + 1) st (by omega) h⟩

theorem fillCand_spec (lcp : List Nat) {mx : Nat} (hb : ∀ i : Nat, i < lcp.length → lcp.getD i 0 ≤ mx) (n : Nat) :
    ∀ (i : Nat) (cand : List (List Nat)), i + n = lcp.length → 1 ≤ i → cand.length = mx + 1 - th →
      (∀ (c : Nat) (l : List Nat), cand[c]? = some l → ∀ j ∈ l, 1 ≤ j ∧ j < lcp.length) →
      (∀ j : Nat, 1 ≤ j → j < i → th ≤ lcp.getD j 0 → ∃ l, cand[lcp.getD j 0 - th]? = some l ∧ j ∈ l) →
    ∃ cand', fillCand lcp th n i cand = .ok cand' ∧ cand'.length = mx + 1 - th ∧
      (∀ (c : Nat) (l : List Nat), cand'[c]? = some l → ∀ j ∈ l, 1 ≤ j ∧ j < lcp.length) ∧
      (∀ j : Nat, 1 ≤ j → j < lcp.length → th ≤ lcp.getD j 0 → ∃ l, cand'[lcp.getD j 0 - th]? = some l ∧ j ∈ l) := by
  induction n with
  | zero =>
    intro i cand hi h1 hl h2 h3
    exact ⟨cand, rfl, hl, h2, fun j a b c => h3 j a (by omega) c⟩
  | succ n ih =>
    intro i cand hi h1 hl h2 h3
    rw [fillCand, vget_ok (getElem?_of_lt (by omega))]
    simp only
    have hbi := hb i (by omega)
    split
    · refine ih (i + 1) cand (by omega) (by omega) hl h2 ?_
      intro j a b c
      by_cases hji : j = i
      · subst hji; omega
      · exact h3 j a (by omega) c
    · obtain ⟨cand', e, l1, g1, g2⟩ := pushCand_spec (cand := cand) (c := lcp.getD i 0 - th) (i := i) (by omega)
      simp only [e]
      refine ih (i + 1) cand' (by omega) (by omega) (by omega) ?_ ?_
      · intro c l hcl j hj
        by_cases hce : c = lcp.getD i 0 - th
        · subst hce
          rw [g1] at hcl
          cases hcl
          rcases List.mem_append.mp hj with hj | hj
          · exact h2 _ _ (List.getElem?_eq_getElem _) j hj
          · rw [List.mem_singleton] at hj; subst hj; omega
        · rw [g2 c hce] at hcl
          exact h2 c l hcl j hj
      · intro j a b c
        by_cases hji : j = i
        · subst hji
          exact ⟨_, g1, by simp⟩
        · obtain ⟨l, hl1, hl2⟩ := h3 j a (by omega) c
          by_cases hce : lcp.getD j 0 - th = lcp.getD i 0 - th
          · rw [hce] at hl1 ⊢
            rw [List.getElem?_eq_getElem (by omega)] at hl1
            cases hl1
            exact ⟨_, g1, List.mem_append_left _ hl2⟩
          · exact ⟨l, by rw [g2 _ hce]; exact hl1, hl2⟩

theorem arraysComp_spec (hA : ArraysOk t A) (hs : Sentinel t) (hth : 1 ≤ th) {mx : Nat} (hmx : ∀ i : Nat, i < t.length → A.lcp.getD i 0 ≤ mx) :
    ∃ fs, arraysComp A mx th = .ok fs ∧ LcpGreedy t A.sa th [] fs := by
  have hG : GInv A th [] (fun i => A.lcp.getD i 0) := GInv.init A th (fun _ => Nat.le_refl _) (fun _ _ _ => rfl)
  have hn := hs.len_pos
  rw [arraysComp]
  by_cases h : mx + 1 ≤ th
  · rw [if_pos h]
    refine ⟨[], rfl, hG.done hA ?_⟩
    intro i hi
    have := hmx i (by rw [hA.isSA.length] at hi; exact hi)
    show A.lcp.getD i 0 < th
    omega
  · rw [if_neg h]
    obtain ⟨cand, e1, l1, m1, f1⟩ := fillCand_spec (th := th) A.lcp (mx := mx) (by rw [hA.lcpLength]; exact hmx) (A.sa.length - 1) 1
      (List.replicate (mx + 1 - th) []) (by rw [hA.isSA.length, hA.lcpLength]; omega) (by omega) (by simp)
      (by
        intro c l hcl j hj
        rw [List.getElem?_replicate] at hcl
        split at hcl
        · cases hcl; simp at hj
        · cases hcl) (by intro j a b; omega)
    rw [hA.lcpLength] at m1 f1
    obtain ⟨st, e2, h2⟩ := arraysLoop_spec hA hs hth (mx := mx) mx ⟨A.lcp, cand, []⟩ (Nat.le_refl _)
      ⟨hG, trivial, hA.lcpLength, l1, hmx, m1, by
        intro i hi hle
        have h0 := ArraysOk.lcpD0 hA
        have hle : th ≤ A.lcp.getD i 0 := hle
        have hi1 : 1 ≤ i := by
          rcases Nat.eq_zero_or_pos i with rfl | h
          · omega
          · exact h
        obtain ⟨l, a, b⟩ := f1 i hi1 hi hle
        have := hmx i hi
        exact ⟨_, l, by omega, a, b, by show A.lcp.getD i 0 ≤ _; omega⟩⟩
    refine ⟨st.fs, ?_, h2⟩
    simp only [e1, e2]

/-- `threshold = 0`: every text -/
theorem arraysLoop_zero (m : Nat) : ∀ st : AState, ∃ e, arraysLoop A 0 m st = .error e := by
  induction m with
  | zero =>
    intro st
    rw [arraysLoop, if_pos (by omega)]
    split <;> exact ⟨_, rfl⟩
  | succ m ih =>
    intro st
    rw [arraysLoop, if_pos (by omega)]
    split
    · exact ⟨_, rfl⟩
    · exact ih _

theorem arraysComp_zero (mx : Nat) : ∃ e, arraysComp A mx 0 = .error e := by
  rw [arraysComp, if_neg (by omega)]
  split
  · exact ⟨_, rfl⟩
  · rename_i cand _
    obtain ⟨e, he⟩ := arraysLoop_zero (A := A) mx ⟨A.lcp, cand, []⟩
    rw [he]
    exact ⟨_, rfl⟩

end LC
end Tdc
