import Verif.Lemmas.EspGreedy

/-!
# `SubSeqOptimal` decomposes into monotone subsequences
-/

namespace Tdc
namespace Esp

/-- The coordinates of `point_coord_for_link` -/
def ptX (sis : List Nat) (rev : Bool) (x : Nat) : Nat := if rev then sis.length - x - 1 else x

def ptY (sis : List Nat) (x : Nat) : Nat := sis[x]?.getD 0

theorem pointFor_ok {sis : List Nat} {rev : Bool} {x : Nat} (h : x < sis.length) : pointFor sis rev x = .ok (ptX sis rev x, ptY sis x) := by
  unfold pointFor ptX ptY
  rw [List.getElem?_eq_getElem h]
  rfl

/-! ## The layers -/

theorem aSearch_ok {a : List Nat} {y : Nat} : ∀ (fuel start stop : Nat), start < stop → stop ≤ a.length → stop - start < fuel → y < a[start]?.getD 0 →
    (stop < a.length → a[stop]?.getD 0 ≤ y) → ∃ j, aSearch a y fuel start stop = .ok j ∧ start ≤ j ∧ j < stop ∧ y < a[j]?.getD 0 ∧ (j + 1 < a.length → a[j + 1]?.getD 0 ≤ y)
  | fuel + 1, start, stop, h1, h2, h3, h4, h5 => by
    rw [aSearch]
    simp only
    have hm1 : start ≤ (stop - start) / 2 + start := by omega
    have hm2 : (stop - start) / 2 + start < stop := by omega
    have hm3 : stop - start > 1 → start < (stop - start) / 2 + start := by omega
    have hm4 : stop - start = 1 → (stop - start) / 2 + start = start := by omega
    generalize (stop - start) / 2 + start = mid at *
    have hg : a[mid]? = some (a[mid]?.getD 0) := by rw [List.getElem?_eq_getElem (by omega)]; rfl
    rw [hg]
    simp only
    by_cases hy : a[mid]?.getD 0 > y
    · simp only [hy, if_true]
      by_cases hs : stop - mid > 1
      · rw [if_pos hs]
        obtain ⟨j, e1, e2, e3, e4⟩ := aSearch_ok fuel mid stop hm2 h2 (by
          have := hm3 (by omega)
          omega) hy h5
        exact ⟨j, e1, by omega, e3, e4⟩
      · rw [if_neg hs]
        refine ⟨mid, rfl, hm1, hm2, hy, ?_⟩
        intro hl
        have : mid + 1 = stop := by omega
        rw [this]
        exact h5 (by omega)
    · simp only [hy, if_false]
      have hne : start < mid := by
        by_cases hs : stop - start > 1
        · exact hm3 hs
        · have := hm4 (by omega)
          rw [this] at hy
          omega
      by_cases hs : mid - start > 1
      · rw [if_pos hs]
        obtain ⟨j, e1, e2, e3, e4⟩ := aSearch_ok fuel start mid hne (by omega) (by omega) h4 (fun _ => by omega)
        exact ⟨j, e1, e2, by omega, e4⟩
      · rw [if_neg hs]
        refine ⟨start, rfl, Nat.le_refl _, by omega, h4, ?_⟩
        intro _
        rw [show start + 1 = mid by omega]
        omega

/-- The layers built from the visited links `V` -/
structure Lay (sis : List Nat) (rev : Bool) (linked V : List Nat) (Ls : List (List Nat)) : Prop where
  mem : ∀ x, x ∈ Ls.flatten ↔ x ∈ V
  ne : ∀ L ∈ Ls, L ≠ []
  nx : ∀ L ∈ Ls, Nx linked L
  anti : ∀ L ∈ Ls, L.Pairwise (fun a b => ptX sis rev a < ptX sis rev b ∧ ptY sis b ≤ ptY sis a)
  dom : ∀ (j : Nat) (A B : List Nat), Ls[j]? = some A → Ls[j + 1]? = some B → ∀ x ∈ B, ∃ z ∈ A, ptX sis rev x < ptX sis rev z ∧ ptY sis x < ptY sis z

def heads (Ls : List (List Nat)) : List Nat := Ls.map (·.headD 0)

def aOf (sis : List Nat) (Ls : List (List Nat)) : List Nat := (2 ^ 64 - 1) :: (heads Ls).map (ptY sis)

theorem mem_headD {L : List Nat} (h : L ≠ []) : L.headD 0 ∈ L := by
  cases L with
  | nil => exact absurd rfl h
  | cons a l => simp

theorem Lay.step {sis linked V : List Nat} {rev : Bool} {Ls : List (List Nat)} (h : Lay sis rev linked V Ls) {x : Nat} (hx : x < linked.length)
    (hX : ∀ v ∈ V, ptX sis rev x < ptX sis rev v) (hy : ptY sis x < 2 ^ 64 - 1) : ∃ linked' Ls',
    rebuildStep (ptY sis x) x linked (heads Ls) (aOf sis Ls) = .ok (linked', heads Ls', aOf sis Ls') ∧ Lay sis rev linked' (V ++ [x]) Ls' ∧
      linked'.length = linked.length ∧ ∀ i, i ≠ x → linked'[i]? = linked[i]? := by
  have hxV : x ∉ V := fun hh => Nat.lt_irrefl _ (hX x hh)
  have hhl : (heads Ls).length = Ls.length := by simp [heads]
  have hal : (aOf sis Ls).length = Ls.length + 1 := by simp [aOf, heads]
  have hnot : ∀ L ∈ Ls, x ∉ L := fun L hL hh => hxV ((h.mem x).1 (List.mem_flatten.2 ⟨L, hL, hh⟩))
  have hV : ∀ L ∈ Ls, ∀ y ∈ L, y ∈ V := fun L hL y hy' => (h.mem y).1 (List.mem_flatten.2 ⟨L, hL, hy'⟩)
  unfold rebuildStep
  simp only
  rw [hhl, List.take_of_length_le (Nat.le_of_eq hal)]
  obtain ⟨j, e1, _, e3, e4, e5⟩ := aSearch_ok (a := aOf sis Ls) (y := ptY sis x) (Ls.length + 2) 0 (aOf sis Ls).length (by omega) (Nat.le_refl _) (by omega)
    (by simpa [aOf] using hy) (by omega)
  rw [e1]
  simp only [Except.bind]
  rw [if_pos hx, hal]
  rw [hal] at e3 e5
  have hframe : ∀ (v : Nat) (L : List Nat), x ∉ L → Nx linked L → Nx (linked.set x v) L := by
    intro v L hn hL
    exact hL.same (fun y hy' => by rw [List.getElem?_set_ne]; rintro rfl; exact hn hy')
  -- the element below
  have hbelow : ∀ j' A, j = j' + 1 → Ls[j']? = some A → ∃ z ∈ A, ptX sis rev x < ptX sis rev z ∧ ptY sis x < ptY sis z := by
    intro j' A hj hA
    have hAm := List.mem_of_getElem? hA
    refine ⟨A.headD 0, mem_headD (h.ne A hAm), hX _ (hV A hAm _ (mem_headD (h.ne A hAm))), ?_⟩
    rw [hj] at e4
    unfold aOf heads at e4
    rw [List.getElem?_cons_succ, List.getElem?_map, List.getElem?_map, hA] at e4
    simpa using e4
  by_cases hj : j = Ls.length
  · subst hj
    simp only [if_true, decide_true]
    refine ⟨linked.set x x, Ls ++ [[x]], ?_, ?_, by simp, ?_⟩
    · simp [heads, aOf]
    · constructor
      · intro z
        rw [List.flatten_append, List.mem_append, List.mem_append, h.mem]
        simp
      · intro L hL
        rcases List.mem_append.1 hL with hL | hL
        · exact h.ne L hL
        · simp only [List.mem_singleton] at hL; subst hL; simp
      · intro L hL
        rcases List.mem_append.1 hL with hL | hL
        · exact hframe x L (hnot L hL) (h.nx L hL)
        · simp only [List.mem_singleton] at hL; subst hL; trivial
      · intro L hL
        rcases List.mem_append.1 hL with hL | hL
        · exact h.anti L hL
        · simp only [List.mem_singleton] at hL; subst hL; simp
      · intro i A B hA hB
        have hi := (List.getElem?_eq_some_iff.1 hB).1
        rw [List.length_append, List.length_singleton] at hi
        rw [List.getElem?_append_left (by omega)] at hA
        by_cases hil : i + 1 = Ls.length
        · rw [List.getElem?_append_right (by omega), hil, Nat.sub_self] at hB
          simp only [List.getElem?_cons_zero, Option.some.injEq] at hB
          subst hB
          intro z hz
          simp only [List.mem_singleton] at hz
          subst hz
          exact hbelow i A hil.symm hA
        · rw [List.getElem?_append_left (by omega)] at hB
          exact h.dom i A B hA hB
    · intro i hi
      rw [List.getElem?_set_ne (Ne.symm hi)]
  · have hjl : j < Ls.length := by omega
    simp only [hj, decide_false, Bool.false_eq_true, if_false]
    rw [if_neg (by omega), if_pos (by omega)]
    simp only
    have hLj : Ls[j]? = some Ls[j] := List.getElem?_eq_getElem hjl
    have hLm : Ls[j] ∈ Ls := List.getElem_mem hjl
    have hhj : (heads Ls)[j]? = some (Ls[j].headD 0) := by
      unfold heads
      rw [List.getElem?_map, hLj]
      rfl
    rw [hhj]
    simp only
    generalize hO : Ls[j] = O at *
    have hOne := h.ne O hLm
    refine ⟨linked.set x (O.headD 0), Ls.set j (x :: O), ?_, ?_, by simp, ?_⟩
    · congr 1
      refine Prod.ext rfl (Prod.ext ?_ ?_)
      · simp [heads, List.map_set]
      · simp [heads, aOf, List.map_set]
    · have hcase : ∀ L ∈ Ls.set j (x :: O), L ∈ Ls ∨ L = x :: O := fun L hL => (List.mem_or_eq_of_mem_set hL)
      constructor
      · intro z
        rw [List.mem_append, ← h.mem, List.mem_flatten, List.mem_flatten, List.mem_singleton]
        constructor
        · rintro ⟨L, hL, hz⟩
          rcases hcase L hL with hL' | rfl
          · exact .inl ⟨L, hL', hz⟩
          · rcases List.mem_cons.1 hz with rfl | hz
            · exact .inr rfl
            · exact .inl ⟨O, hLm, hz⟩
        · rintro (⟨L, hL, hz⟩ | rfl)
          · obtain ⟨i, hi⟩ := List.mem_iff_getElem?.1 hL
            by_cases hij : i = j
            · subst hij
              rw [hLj] at hi
              simp only [Option.some.injEq] at hi
              subst hi
              exact ⟨x :: O, List.mem_iff_getElem?.2 ⟨i, List.getElem?_set_self hjl⟩, by simp [hz]⟩
            · exact ⟨L, List.mem_iff_getElem?.2 ⟨i, by rw [List.getElem?_set_ne (Ne.symm hij)]; exact hi⟩, hz⟩
          · exact ⟨z :: O, List.mem_iff_getElem?.2 ⟨j, List.getElem?_set_self hjl⟩, by simp⟩
      · intro L hL
        rcases hcase L hL with hL | rfl
        · exact h.ne L hL
        · simp
      · intro L hL
        rcases hcase L hL with hL | rfl
        · exact hframe _ L (hnot L hL) (h.nx L hL)
        · cases O with
          | nil => exact absurd rfl hOne
          | cons o O => exact ⟨by rw [List.getElem?_set_self hx]; rfl, hframe _ _ (hnot _ hLm) (h.nx _ hLm)⟩
      · intro L hL
        rcases hcase L hL with hL | rfl
        · exact h.anti L hL
        · rw [List.pairwise_cons]
          refine ⟨?_, h.anti O hLm⟩
          intro b hb
          refine ⟨hX b (hV O hLm b hb), ?_⟩
          have h5 := e5 (by omega)
          unfold aOf at h5
          rw [List.getElem?_cons_succ, List.getElem?_map, hhj] at h5
          simp only [Option.map_some, Option.getD_some] at h5
          cases O with
          | nil => exact absurd rfl hOne
          | cons o O =>
            have hp := h.anti _ hLm
            rw [List.pairwise_cons] at hp
            simp only [List.headD_cons] at h5
            rcases List.mem_cons.1 hb with rfl | hb
            · exact h5
            · exact Nat.le_trans (hp.1 b hb).2 h5
      · intro i A B hA hB z hz
        by_cases hi1 : i + 1 = j
        · rw [hi1, List.getElem?_set_self hjl] at hB
          simp only [Option.some.injEq] at hB
          subst hB
          rw [List.getElem?_set_ne (by omega)] at hA
          rcases List.mem_cons.1 hz with rfl | hz
          · exact hbelow i A hi1.symm hA
          · exact h.dom i A O hA (by rw [hi1]; exact hLj) z hz
        · rw [List.getElem?_set_ne (Ne.symm hi1)] at hB
          by_cases hi : i = j
          · subst hi
            rw [List.getElem?_set_self hjl] at hA
            simp only [Option.some.injEq] at hA
            subst hA
            obtain ⟨w, hw, hw'⟩ := h.dom i O B hLj hB z hz
            exact ⟨w, by simp [hw], hw'⟩
          · rw [List.getElem?_set_ne (Ne.symm hi)] at hA
            exact h.dom i A B hA hB z hz
    · intro i hi
      rw [List.getElem?_set_ne (Ne.symm hi)]

theorem rebuildLoop_ok {sis free : List Nat} {rev : Bool} (hsis : ∀ x, x < sis.length → ptY sis x < 2 ^ 64 - 1) :
    ∀ (W : List Nat) (c fuel front back : Nat) (V linked : List Nat) (Ls : List (List Nat)), W.length < fuel → linked.length = sis.length → (∀ x ∈ c :: W, x < sis.length) →
      (V ++ c :: W).Pairwise (fun a b => ptX sis rev b < ptX sis rev a) → Lay sis rev linked V Ls →
      (if rev then front else back) = c → (c :: W).getLast? = some (if rev then back else front) → Nx (if rev then free else linked) (c :: W) → (if rev then free else linked).length = sis.length →
      ∃ linked' Ls', rebuildLoop sis free rev fuel front back linked (heads Ls) (aOf sis Ls) = .ok (linked', heads Ls') ∧ Lay sis rev linked' (V ++ c :: W) Ls' ∧
        linked'.length = linked.length ∧ ∀ i, i ∉ c :: W → linked'[i]? = linked[i]?
  | W, c, fuel + 1, front, back, V, linked, Ls, hf, hl, hb, hp, hL, hc, he, hnx, hTl => by
    have hcb := hb c (by simp)
    rw [rebuildLoop]
    have hnext : ∃ nx, (if rev then free[front]? else linked[back]?) = some nx ∧ ∀ d W', W = d :: W' → nx = d := by
      cases rev with
      | true =>
        simp only [if_true] at *
        subst hc
        refine ⟨free[front], List.getElem?_eq_getElem (by omega), ?_⟩
        rintro d W' rfl
        have := hnx.1
        rw [List.getElem?_eq_getElem (by omega)] at this
        simpa using this
      | false =>
        simp only [Bool.false_eq_true, if_false] at *
        subst hc
        refine ⟨linked[back], List.getElem?_eq_getElem (by omega), ?_⟩
        rintro d W' rfl
        have := hnx.1
        rw [List.getElem?_eq_getElem (by omega)] at this
        simpa using this
    obtain ⟨nx, hn1, hn2⟩ := hnext
    rw [hc, hn1]
    simp only [pointFor_ok hcb]
    simp only [Except.bind]
    rw [List.pairwise_append, List.pairwise_cons] at hp
    obtain ⟨linked1, Ls1, s1, s2, s3, s4⟩ := hL.step (x := c) (by omega) (fun v hv => hp.2.2 v hv c (by simp)) (hsis c hcb)
    rw [s1]
    simp only
    have hcW : c ∉ W := fun hh => Nat.lt_irrefl _ (hp.2.1.1 c hh)
    cases W with
    | nil =>
      have hfb : front = back := by
        cases rev <;> simp_all
      rw [if_pos hfb]
      exact ⟨linked1, Ls1, rfl, s2, s3, fun i hi => s4 i (by simpa using hi)⟩
    | cons d W =>
      have hfb : front ≠ back := by
        intro hfb
        have hmem : c ∈ d :: W := by
          have h1 : (c :: d :: W).getLast? = (d :: W).getLast? := by simp [List.getLast?_cons_cons]
          rw [h1] at he
          have := List.mem_of_getLast? he
          have h2 : (if rev = true then back else front) = c := by
            rw [← hc, hfb]
          rwa [h2] at this
        exact hcW hmem
      rw [if_neg hfb]
      have hnd := hn2 d W rfl
      subst hnd
      simp only [List.length_cons] at hf
      have hp' : ((V ++ [c]) ++ nx :: W).Pairwise (fun a b => ptX sis rev b < ptX sis rev a) := by
        rw [List.append_assoc, List.pairwise_append]
        simp only [List.singleton_append]
        rw [List.pairwise_cons]
        exact hp
      have hT : Nx (if rev then free else linked1) (nx :: W) := by
        cases rev with
        | true => simpa using hnx.2
        | false =>
          simp only [Bool.false_eq_true, if_false] at *
          exact hnx.2.same (fun y hy => s4 y (fun e => hcW (by rw [← e]; exact hy)))
      have h1 : (c :: nx :: W).getLast? = (nx :: W).getLast? := by simp [List.getLast?_cons_cons]
      rw [h1] at he
      obtain ⟨linked2, Ls2, r1, r2, r3, r4⟩ := rebuildLoop_ok hsis W nx fuel (if rev then nx else front) (if rev then back else nx) (V ++ [c]) linked1 Ls1 (by omega) (by omega)
        (fun x hx => hb x (by simp only [List.mem_cons] at *; exact .inr hx)) hp' s2 (by cases rev <;> rfl) (by rw [he]; cases rev <;> rfl) hT (by cases rev <;> simp_all)
      refine ⟨linked2, Ls2, r1, by simpa using r2, by omega, ?_⟩
      intro i hi
      simp only [List.mem_cons, not_or] at hi
      rw [r4 i (by simp only [List.mem_cons, not_or]; exact hi.2), s4 i hi.1]

/-! ## The longest subsequence -/

theorem nodup_len {n : Nat} {l : List Nat} (h1 : l.Nodup) (h2 : ∀ x ∈ l, x < n) : l.length ≤ n := by
  have := (List.subperm_of_subset h1 (fun x hx => List.mem_range.2 (h2 x hx))).length_le
  simpa using this

theorem lisSearch_ok {sis linked : List Nat} {rev : Bool} {q : Nat} (hq : q < sis.length) : ∀ (fuel : Nat) (c : Nat) (W : List Nat), W.length < fuel → Nx linked (c :: W) →
    (∀ x ∈ c :: W, x < sis.length) → (∃ z ∈ c :: W, ptX sis rev q < ptX sis rev z ∧ ptY sis q < ptY sis z) →
    ∃ z, lisSearch sis linked rev q fuel c = .ok z ∧ z ∈ c :: W ∧ ptX sis rev q < ptX sis rev z ∧ ptY sis q < ptY sis z
  | fuel + 1, c, W, hf, hnx, hb, ⟨z, hz, hz1, hz2⟩ => by
    rw [lisSearch]
    unfold dominates
    rw [pointFor_ok (hb c (by simp)), pointFor_ok hq]
    simp only [Except.bind]
    by_cases hd : (decide (ptX sis rev c > ptX sis rev q) && decide (ptY sis c > ptY sis q)) = true
    · rw [if_pos hd]
      rw [Bool.and_eq_true, decide_eq_true_eq, decide_eq_true_eq] at hd
      exact ⟨c, rfl, by simp, hd.1, hd.2⟩
    · rw [if_neg hd]
      cases W with
      | nil =>
        simp only [List.mem_singleton] at hz
        subst hz
        simp [hz1, hz2] at hd
      | cons d W =>
        rw [hnx.1]
        simp only
        simp only [List.length_cons] at hf
        have hz' : z ∈ d :: W := by
          rcases List.mem_cons.1 hz with rfl | hz
          · simp [hz1, hz2] at hd
          · exact hz
        obtain ⟨w, e1, e2, e3⟩ := lisSearch_ok hq fuel d W (by omega) hnx.2 (fun x hx => hb x (List.mem_cons_of_mem _ hx)) ⟨z, hz', hz1, hz2⟩
        exact ⟨w, e1, List.mem_cons_of_mem _ e2, e3⟩

theorem lisLoop_ok {sis V : List Nat} {s : LSt} {Ls : List (List Nat)} (hL : Lay sis s.reverse s.linked V Ls) (hh : s.layers = heads Ls) (hl : s.linked.length = sis.length)
    (hb : ∀ x ∈ V, x < sis.length) : ∀ (l q : Nat) (A : List Nat), Ls[l]? = some A → q ∈ A →
    ∃ r, lisLoop sis s l q = .ok r ∧ r.length = l ∧ (∀ x ∈ r, x ∈ V) ∧ (q :: r).Pairwise (fun a b => ptX sis s.reverse a < ptX sis s.reverse b ∧ ptY sis a < ptY sis b)
  | 0, q, A, _, _ => ⟨[], rfl, rfl, by simp, by simp⟩
  | l + 1, q, A, hA, hq => by
    have hlt : l < Ls.length := by
      have := (List.getElem?_eq_some_iff.1 hA).1
      omega
    have hLl : Ls[l]? = some Ls[l] := List.getElem?_eq_getElem hlt
    have hLm : Ls[l] ∈ Ls := List.getElem_mem hlt
    generalize Ls[l] = L at *
    have hV : ∀ M ∈ Ls, ∀ x ∈ M, x ∈ V := fun M hM x hx => (hL.mem x).1 (List.mem_flatten.2 ⟨M, hM, hx⟩)
    rw [lisLoop, hh]
    have hhl : (heads Ls)[l]? = some (L.headD 0) := by
      unfold heads
      rw [List.getElem?_map, hLl]
      rfl
    rw [hhl]
    simp only
    cases L with
    | nil => exact absurd rfl (hL.ne _ hLm)
    | cons c W =>
      simp only [List.headD_cons]
      have hlen : (c :: W).length ≤ sis.length := by
        apply nodup_len
        · exact (hL.anti _ hLm).imp (fun hab => by rintro rfl; exact Nat.lt_irrefl _ hab.1)
        · exact fun x hx => hb x (hV _ hLm x hx)
      simp only [List.length_cons] at hlen
      have hqV := hV A (List.mem_of_getElem? hA) q hq
      obtain ⟨z, e1, e2, e3, e4⟩ := lisSearch_ok (linked := s.linked) (rev := s.reverse) (hb q hqV) (s.linked.length + 1) c W (by omega) (hL.nx _ hLm)
        (fun x hx => hb x (hV _ hLm x hx)) (hL.dom l _ A hLl hA q hq)
      rw [e1]
      simp only [Except.bind]
      obtain ⟨r, r1, r2, r3, r4⟩ := lisLoop_ok hL hh hl hb l z _ hLl e2
      rw [r1]
      simp only
      refine ⟨z :: r, rfl, by simp [r2], ?_, ?_⟩
      · intro x hx
        rcases List.mem_cons.1 hx with rfl | hx
        · exact hV _ hLm x e2
        · exact r3 x hx
      · rw [List.pairwise_cons]
        refine ⟨?_, r4⟩
        intro b hb'
        rcases List.mem_cons.1 hb' with rfl | hb'
        · exact ⟨e3, e4⟩
        · have := (List.pairwise_cons.1 r4).1 b hb'
          exact ⟨by omega, by omega⟩

theorem lis_ok {sis V : List Nat} {s : LSt} {Ls : List (List Nat)} (hL : Lay sis s.reverse s.linked V Ls) (hh : s.layers = heads Ls) (hl : s.linked.length = sis.length)
    (hb : ∀ x ∈ V, x < sis.length) (hne : V ≠ []) : ∃ r, s.lis sis = .ok r ∧ r.length = Ls.length ∧ r ≠ [] ∧ (∀ x ∈ r, x ∈ V) ∧
    r.Pairwise (fun a b => ptX sis s.reverse a < ptX sis s.reverse b ∧ ptY sis a < ptY sis b) := by
  have hk : Ls.length ≠ 0 := by
    obtain ⟨x, hx⟩ := List.exists_mem_of_ne_nil _ hne
    have := (hL.mem x).2 hx
    intro h0
    rw [List.length_eq_zero_iff.1 h0] at this
    simp at this
  have hhl : (heads Ls).length = Ls.length := by simp [heads]
  unfold LSt.lis
  simp only
  rw [hh, hhl, if_neg hk]
  have hlt : Ls.length - 1 < Ls.length := by omega
  have hLl : Ls[Ls.length - 1]? = some Ls[Ls.length - 1] := List.getElem?_eq_getElem hlt
  have hLm : Ls[Ls.length - 1] ∈ Ls := List.getElem_mem hlt
  have hhl : (heads Ls)[Ls.length - 1]? = some (Ls[Ls.length - 1].headD 0) := by
    unfold heads
    rw [List.getElem?_map, hLl]
    rfl
  rw [hhl]
  simp only
  have hq := mem_headD (hL.ne _ hLm)
  obtain ⟨r, r1, r2, r3, r4⟩ := lisLoop_ok hL hh hl hb (Ls.length - 1) _ _ hLl hq
  rw [r1]
  refine ⟨_, rfl, by simp [r2]; omega, by simp, ?_, r4⟩
  intro x hx
  rcases List.mem_cons.1 hx with rfl | hx
  · exact (hL.mem _).1 (List.mem_flatten.2 ⟨_, hLm, hq⟩)
  · exact r3 x hx

/-- No chain of visited links is longer than the number of layers. -/
theorem Lay.longest {sis linked V : List Nat} {rev : Bool} {Ls : List (List Nat)} (h : Lay sis rev linked V Ls) {C : List Nat} (hC : ∀ x ∈ C, x ∈ V)
    (hp : C.Pairwise (fun a b => ptX sis rev a < ptX sis rev b ∧ ptY sis a < ptY sis b)) : C.length ≤ Ls.length := by
  have hex : ∀ x ∈ C, ∃ j, j < Ls.length ∧ ∃ L, Ls[j]? = some L ∧ x ∈ L := by
    intro x hx
    obtain ⟨L, hL, hxL⟩ := List.mem_flatten.1 ((h.mem x).2 (hC x hx))
    obtain ⟨j, hj⟩ := List.mem_iff_getElem?.1 hL
    exact ⟨j, (List.getElem?_eq_some_iff.1 hj).1, L, hj, hxL⟩
  classical
  let f : Nat → Nat := fun x => if hx : x ∈ C then Classical.choose (hex x hx) else 0
  have hf : ∀ x ∈ C, f x < Ls.length ∧ ∃ L, Ls[f x]? = some L ∧ x ∈ L := by
    intro x hx
    simp only [f, dif_pos hx]
    exact Classical.choose_spec (hex x hx)
  have hnd : (C.map f).Nodup := by
    rw [List.Nodup, List.pairwise_map]
    refine List.Pairwise.imp_of_mem ?_ hp
    intro a b ha hb hab hfe
    obtain ⟨_, L, hL, haL⟩ := hf a ha
    obtain ⟨_, L', hL', hbL⟩ := hf b hb
    rw [← hfe, hL] at hL'
    simp only [Option.some.injEq] at hL'
    subst hL'
    rcases pw_mem (h.anti L (List.mem_of_getElem? hL)) a haL b hbL with e | e | e
    · subst e; omega
    · omega
    · omega
  have := nodup_len (n := Ls.length) hnd (by
    intro y hy
    obtain ⟨x, hx, rfl⟩ := List.mem_map.1 hy
    exact (hf x hx).1)
  simpa using this

end Esp
end Tdc
