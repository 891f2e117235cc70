import Verif.Lemmas.EspOptimal
import Mathlib.Data.List.Sort

/-!
# `SubSeqOptimal`: removal and the loop
-/

namespace Tdc
namespace Esp

/-! ## Removal from the free list -/

/-- `free` links `F`, the last link points to itself. -/
structure FL (free : List Nat) (F : List Nat) : Prop where
  nx : Nx free F
  last : ∀ e, F.getLast? = some e → free[e]? = some e
  asc : F.Pairwise (· < ·)
  lt : ∀ x ∈ F, x < free.length

theorem FL.next {free P R : List Nat} {c : Nat} (h : FL free (P ++ c :: R)) : free[c]? = some (R.head?.getD c) := by
  cases R with
  | nil => simpa using h.last c (by simp)
  | cons d R => simpa using (Nx.split.1 h.nx).2.1

theorem FL.nodup {free F : List Nat} (h : FL free F) : F.Nodup := h.asc.imp (fun hh => Nat.ne_of_lt hh)

/-- The state while walking: `P` is behind, `R` ahead -/
structure FInv (s : FreeSt) (P R : List Nat) : Prop where
  fl : FL s.free (P ++ R)
  first : ∀ e, (P ++ R).head? = some e → s.freeStart = e
  stop : ∀ e, (P ++ R).getLast? = some e → s.freeEnd = e
  cur : ∀ c R', R = c :: R' → s.cur = c ∧ s.prev = P.getLast?.getD c ∧ s.next = R'.head?.getD c

theorem freeWalk_ok {x : Nat} : ∀ (fuel : Nat) (s : FreeSt) (P R1 R2 : List Nat), FInv s P (R1 ++ x :: R2) → R1.length < fuel →
    ∃ s', freeWalk x fuel s = .ok s' ∧ FInv s' (P ++ R1) (x :: R2) ∧ s'.free = s.free
  | fuel + 1, s, P, [], R2, h, _ => by
    obtain ⟨h1, h2, h3⟩ := h.cur x R2 rfl
    rw [freeWalk, if_neg (by simp [h1])]
    exact ⟨s, rfl, by simpa using h, rfl⟩
  | fuel + 1, s, P, c :: R1, R2, h, hf => by
    obtain ⟨h1, h2, h3⟩ := h.cur c (R1 ++ x :: R2) rfl
    have hnd := h.fl.nodup
    rw [List.nodup_append] at hnd
    have hne : c ≠ x := by
      have := hnd.2.1
      rw [List.cons_append, List.nodup_cons] at this
      rintro rfl
      exact this.1 (by simp)
    obtain ⟨d, R', hd⟩ : ∃ d R', R1 ++ x :: R2 = d :: R' := by
      cases R1 with
      | nil => exact ⟨_, _, rfl⟩
      | cons a b => exact ⟨_, _, rfl⟩
    rw [hd] at h3
    simp only [List.head?_cons, Option.getD_some] at h3
    have hassoc : P ++ (c :: R1 ++ x :: R2) = (P ++ [c]) ++ (R1 ++ x :: R2) := by simp
    have hfl := h.fl
    rw [hassoc] at hfl
    have hnx : s.free[d]? = some (R'.head?.getD d) := by
      rw [hd] at hfl
      exact hfl.next
    rw [freeWalk, if_pos (by rw [h1]; exact hne), h3, hnx]
    simp only
    simp only [List.length_cons] at hf
    obtain ⟨s', e1, e2, e3⟩ := freeWalk_ok (x := x) fuel { s with prev := s.cur, cur := d, next := R'.head?.getD d } (P ++ [c]) R1 R2 (by
      refine ⟨hfl, ?_, ?_, ?_⟩
      · rw [← hassoc]; exact h.first
      · rw [← hassoc]; exact h.stop
      · intro c' R'' hc
        rw [hd] at hc
        simp only [List.cons.injEq] at hc
        obtain ⟨rfl, rfl⟩ := hc
        exact ⟨rfl, by simp [h1], rfl⟩) (by omega)
    exact ⟨s', e1, by simpa using e2, e3⟩

theorem FL.drop {free P R : List Nat} {p x y : Nat} (h : FL free (P ++ p :: x :: y :: R)) : FL (free.set p y) (P ++ p :: y :: R) := by
  have hnd := h.nodup
  have hpl := h.lt p (by simp)
  have hasc := h.asc
  refine ⟨?_, ?_, ?_, ?_⟩
  · apply Nx.remove h.nx hnd
    · rw [List.getElem?_set_self hpl]
    · intro z hz _
      rw [List.getElem?_set_ne (Ne.symm hz)]
  · intro e he
    have he' : (P ++ p :: x :: y :: R).getLast? = some e := by
      rw [← he]
      simp [List.getLast?_append, List.getLast?_cons_cons]
    have := h.last e he'
    have hep : e ≠ p := by
      rintro rfl
      rw [List.nodup_append] at hnd
      have h2 := hnd.2.1
      rw [List.nodup_cons] at h2
      apply h2.1
      have : (y :: R).getLast? = some e := by
        rw [← he]
        have hw : (y :: R).getLast? = some ((y :: R).getLast (by simp)) := List.getLast?_eq_some_getLast _
        rw [List.getLast?_append, List.getLast?_cons_cons, hw]
        rfl
      exact List.mem_cons_of_mem _ (List.mem_of_getLast? this)
    rw [List.getElem?_set_ne (Ne.symm hep)]
    exact this
  · exact hasc.sublist (by simp)
  · intro z hz
    rw [List.length_set]
    apply h.lt
    simp only [List.mem_append, List.mem_cons] at *
    tauto

theorem FL.pop {free P : List Nat} {p x : Nat} (h : FL free (P ++ [p, x])) : FL (free.set p p) (P ++ [p]) := by
  have hnd := h.nodup
  have hpl := h.lt p (by simp)
  have hpP : p ∉ P := by
    intro hp
    rw [List.nodup_append] at hnd
    exact hnd.2.2 p hp p (by simp) rfl
  refine ⟨?_, ?_, ?_, ?_⟩
  · exact (Nx.split.1 h.nx).1.frame (fun z hz => by
      rw [List.getElem?_set_ne]
      rintro rfl
      exact hpP hz)
  · intro e he
    simp at he
    subst he
    rw [List.getElem?_set_self hpl]
  · exact h.asc.sublist (by simp)
  · intro z hz
    rw [List.length_set]
    apply h.lt
    simp only [List.mem_append, List.mem_cons] at *
    tauto

theorem FL.tail {free R : List Nat} {x y : Nat} (h : FL free (x :: y :: R)) : FL free (y :: R) := by
  refine ⟨h.nx.2, ?_, h.asc.sublist (by simp), fun z hz => h.lt z (List.mem_cons_of_mem _ hz)⟩
  intro e he
  exact h.last e (by rw [← he]; simp [List.getLast?_cons_cons])

theorem freeUpdate_ok {x : Nat} {s : FreeSt} {P R1 R2 : List Nat} (h : FInv s P (R1 ++ x :: R2)) (hne : P ++ R1 ++ R2 ≠ []) :
    ∃ s', freeUpdate s x = .ok s' ∧ FInv s' (P ++ R1) R2 ∧ s'.free.length = s.free.length := by
  have hfuel : R1.length < s.free.length + 1 := by
    have := nodup_len h.fl.nodup h.fl.lt
    simp only [List.length_append, List.length_cons] at this
    omega
  obtain ⟨s1, e1, e2, e3⟩ := freeWalk_ok (s.free.length + 1) s P R1 R2 h hfuel
  unfold freeUpdate
  rw [e1]
  simp only [Except.bind]
  rw [← e3]
  obtain ⟨c1, c2, c3⟩ := e2.cur x R2 rfl
  generalize P ++ R1 = Q at *
  have hnd := e2.fl.nodup
  have hfl := e2.fl
  rcases List.eq_nil_or_concat Q with rfl | ⟨Q', p, rfl⟩
  · cases R2 with
    | nil => simp at hne
    | cons y R2 =>
      simp only [List.getLast?_nil, Option.getD_none, List.head?_cons, Option.getD_some, List.nil_append] at *
      have hxy : x ≠ y := by
        rw [List.nodup_cons] at hnd
        rintro rfl
        exact hnd.1 (by simp)
      rw [c1, c2, c3]
      have hy : s1.free[y]? = some (R2.head?.getD y) := by
        have := FL.next (P := [x]) (c := y) (R := R2) (by simpa using hfl)
        exact this
      simp only [ne_eq, not_true_eq_false, decide_false, Bool.false_and, Bool.false_eq_true, if_false, hxy, not_false_eq_true, decide_true, Bool.not_false, Bool.and_self, if_true, hy]
      refine ⟨_, rfl, ⟨?_, ?_, ?_, ?_⟩, rfl⟩
      · exact hfl.tail
      · intro e he; simpa using he
      · intro e he
        exact e2.stop e (by rw [← he]; simp [List.getLast?_cons_cons])
      · intro c R' hc
        simp only [List.cons.injEq] at hc
        obtain ⟨rfl, rfl⟩ := hc
        exact ⟨rfl, rfl, rfl⟩
  · rw [List.concat_eq_append] at *
    simp only [List.getLast?_append, List.getLast?_singleton, Option.some_or, Option.getD_some] at c2
    have hpx : p ≠ x := by
      rw [List.nodup_append] at hnd
      exact hnd.2.2 p (by simp) x (by simp)
    have hpl : p < s1.free.length := hfl.lt p (by simp)
    cases R2 with
    | nil =>
      simp only [List.head?_nil, Option.getD_none] at c3
      rw [c1, c2, c3]
      have hfl' : FL s1.free (Q' ++ [p, x]) := by simpa using hfl
      have hx : (s1.free.set p p)[x]? = some x := by
        rw [List.getElem?_set_ne hpx]
        exact hfl.last x (by simp)
      simp only [ne_eq, hpx, not_false_eq_true, decide_true, not_true_eq_false, decide_false, Bool.and_false, Bool.false_eq_true, if_false, Bool.not_false, Bool.and_self, if_true, hpl, hx]
      refine ⟨_, rfl, ⟨?_, ?_, ?_, ?_⟩, by simp⟩
      · simpa using hfl'.pop
      · intro e he
        refine e2.first e ?_
        simp only [List.append_nil] at he
        rw [List.head?_append, he]
        rfl
      · intro e he
        simpa using he
      · intro c R' hc; simp at hc
    | cons y R2 =>
      simp only [List.head?_cons, Option.getD_some] at c3
      rw [c1, c2, c3]
      have hfl' : FL s1.free (Q' ++ p :: x :: y :: R2) := by simpa using hfl
      have hnd' := hfl'.nodup
      have hxy : x ≠ y := by
        rw [List.nodup_append] at hnd
        have h2 := hnd.2.1
        rw [List.nodup_cons] at h2
        rintro rfl
        exact h2.1 (by simp)
      have hpy : p ≠ y := by
        rw [List.nodup_append] at hnd
        exact hnd.2.2 p (by simp) y (by simp)
      have hdrop := hfl'.drop
      have hy : (s1.free.set p y)[y]? = some (R2.head?.getD y) := by
        exact FL.next (P := Q' ++ [p]) (c := y) (R := R2) (by simpa using hdrop)
      simp only [ne_eq, hpx, hxy, not_false_eq_true, decide_true, Bool.and_self, if_true, hpl, hy]
      refine ⟨_, rfl, ⟨?_, ?_, ?_, ?_⟩, by simp⟩
      · simpa using hdrop
      · intro e he
        refine e2.first e ?_
        rw [← he]
        simp
      · intro e he
        refine e2.stop e ?_
        rw [← he]
        simp [List.getLast?_append, List.getLast?_cons_cons]
      · intro c R' hc
        simp only [List.cons.injEq] at hc
        obtain ⟨rfl, rfl⟩ := hc
        exact ⟨rfl, by simp, rfl⟩

theorem freeUpdate_one {x : Nat} {s : FreeSt} (h : FInv s [] [x]) : ∃ s', freeUpdate s x = .ok s' ∧ s'.free = s.free := by
  obtain ⟨s1, e1, e2, e3⟩ := freeWalk_ok (s.free.length + 1) s [] [] [] (x := x) h (by simp)
  unfold freeUpdate
  rw [e1]
  simp only [Except.bind]
  obtain ⟨c1, c2, c3⟩ := e2.cur x [] rfl
  simp only [List.append_nil, List.getLast?_nil, Option.getD_none, List.head?_nil] at c2 c3
  rw [c1, c2, c3]
  simp only [ne_eq, not_true_eq_false, decide_false, Bool.false_and, Bool.false_eq_true, if_false, Bool.not_false, Bool.and_false]
  exact ⟨s1, rfl, e3⟩

theorem freeUpdateAll_ok : ∀ (S : List Nat) (s : FreeSt) (P R : List Nat), FInv s P R → S.Sublist R →
    ∃ s', freeUpdateAll s S = .ok s' ∧ s'.free.length = s.free.length ∧ (P ++ R.filter (fun y => y ∉ S) ≠ [] →
      FL s'.free (P ++ R.filter (fun y => y ∉ S)) ∧ (∀ e, (P ++ R.filter (fun y => y ∉ S)).head? = some e → s'.freeStart = e) ∧
      ∀ e, (P ++ R.filter (fun y => y ∉ S)).getLast? = some e → s'.freeEnd = e)
  | [], s, P, R, h, _ => by
    refine ⟨s, rfl, rfl, ?_⟩
    have : R.filter (fun y => decide (y ∉ ([] : List Nat))) = R := by simp
    rw [this]
    exact fun _ => ⟨h.fl, h.first, h.stop⟩
  | x :: S, s, P, R, h, hs => by
    obtain ⟨R1, R2, rfl, hR2⟩ : ∃ R1 R2, R = R1 ++ x :: R2 ∧ S.Sublist R2 := by
      obtain ⟨r1, r2, e, h1, h2⟩ := List.cons_sublist_iff.1 hs
      obtain ⟨a, b, rfl⟩ := List.append_of_mem h1
      exact ⟨a, b ++ r2, by simp [e], h2.trans (List.sublist_append_right _ _)⟩
    have hnd := h.fl.nodup
    rw [List.nodup_append, List.nodup_append, List.nodup_cons] at hnd
    rw [freeUpdateAll]
    have hfilter : (R1 ++ x :: R2).filter (fun y => decide (y ∉ x :: S)) = R1 ++ R2.filter (fun y => decide (y ∉ S)) := by
      rw [List.filter_append, List.filter_cons_of_neg (by simp)]
      congr 1
      · rw [List.filter_eq_self]
        intro y hy
        simp only [decide_eq_true_eq, List.mem_cons, not_or]
        refine ⟨hnd.2.1.2.2 y hy x (by simp), fun hyS => ?_⟩
        exact hnd.2.1.2.2 y hy y (by simp [hR2.subset hyS]) rfl
      · apply List.filter_congr
        intro y hy
        have : y ≠ x := by rintro rfl; exact hnd.2.1.2.1.1 hy
        simp [this]
    rw [hfilter]
    by_cases hne : P ++ R1 ++ R2 = []
    · simp only [List.append_eq_nil_iff] at hne
      obtain ⟨⟨rfl, rfl⟩, rfl⟩ := hne
      have hS : S = [] := List.sublist_nil.1 hR2
      subst hS
      obtain ⟨s', e1, e2⟩ := freeUpdate_one (x := x) (s := s) (by simpa using h)
      rw [e1]
      exact ⟨s', rfl, by rw [e2], by simp⟩
    · obtain ⟨s', e1, e2, e3⟩ := freeUpdate_ok h hne
      rw [e1]
      simp only [Except.bind]
      obtain ⟨s'', e4, e5, e6⟩ := freeUpdateAll_ok S s' (P ++ R1) R2 e2 hR2
      refine ⟨s'', e4, by omega, ?_⟩
      rw [← List.append_assoc]
      exact e6

/-! ## The previous links -/

theorem relink_ok {free : List Nat} : ∀ (W : List Nat) (c fuel prev : Nat) (P linked : List Nat), FL free (c :: W) → W.length < fuel → (∀ x ∈ c :: W, x < linked.length) →
    (P ≠ [] → P.head? = some prev) → Nx linked P → (∀ x ∈ P, x ∉ c :: W) →
    ∃ linked', relink free fuel c prev linked = .ok linked' ∧ linked'.length = linked.length ∧ Nx linked' (W.reverse ++ c :: P) ∧ ∀ i, i ∉ c :: W → linked'[i]? = linked[i]?
  | W, c, fuel + 1, prev, P, linked, h, hf, hl, hp, hP, hd => by
    have hc := hl c (by simp)
    have hnd := h.nodup
    rw [List.nodup_cons] at hnd
    rw [relink, if_pos hc]
    simp only
    have hnx := FL.next (P := []) (c := c) (R := W) (by simpa using h)
    rw [hnx]
    simp only
    have hNx : Nx (linked.set c prev) (c :: P) := by
      cases P with
      | nil => trivial
      | cons p P =>
        have := hp (by simp)
        simp only [List.head?_cons, Option.some.injEq] at this
        subst this
        exact ⟨List.getElem?_set_self hc, hP.same (fun x hx => by
          rw [List.getElem?_set_ne]
          rintro rfl
          exact hd c hx (by simp))⟩
    cases W with
    | nil =>
      simp only [List.head?_nil, Option.getD_none, if_true]
      refine ⟨_, rfl, by simp, by simpa using hNx, ?_⟩
      intro i hi
      rw [List.getElem?_set_ne]
      rintro rfl
      exact hi (by simp)
    | cons d W =>
      simp only [List.head?_cons, Option.getD_some]
      have hcd : c ≠ d := by rintro rfl; exact hnd.1 (by simp)
      simp only [hcd, if_false]
      simp only [List.length_cons] at hf
      obtain ⟨linked', e1, e2, e3, e4⟩ := relink_ok W d fuel c (c :: P) (linked.set c prev) h.tail (by omega) (by
        intro x hx
        rw [List.length_set]
        exact hl x (List.mem_cons_of_mem _ hx)) (fun _ => rfl) hNx (by
          intro x hx
          rcases List.mem_cons.1 hx with rfl | hx
          · exact hnd.1
          · intro hh
            exact hd x hx (List.mem_cons_of_mem _ hh))
      refine ⟨linked', e1, by simpa using e2, by simpa using e3, ?_⟩
      intro i hi
      rw [e4 i (fun hh => hi (List.mem_cons_of_mem _ hh)), List.getElem?_set_ne]
      rintro rfl
      exact hi (by simp)

/-! ## The loop -/

/-- The state between the rounds -/
structure OInv (sis : List Nat) (s : LSt) (F : List Nat) (b : List Bool) : Prop where
  llen : s.linked.length = sis.length
  flen : s.free.length = sis.length
  rem : s.remaining = F.length
  removed : s.removed = b.length
  asc : F.Pairwise (· < ·)
  lt : ∀ x ∈ F, x < sis.length
  fl : F ≠ [] → FL s.free F
  first : ∀ e, F.head? = some e → s.freeStart = e
  stop : ∀ e, F.getLast? = some e → s.freeEnd = e

theorem LSt.removeAll_ok {sis : List Nat} {s : LSt} {F : List Nat} {b : List Bool} (h : OInv sis s F b) {r S : List Nat} (hne : r ≠ []) (hS : S.Sublist F)
    (hr : (r.Pairwise (· < ·) ∧ S = r) ∨ (r.Pairwise (fun a b => b < a) ∧ S = r.reverse)) (bit : Bool) :
    ∃ s', s.removeAll r = .ok s' ∧ OInv sis s' (F.filter (fun y => y ∉ r)) (bit :: b) ∧ Nx s'.linked (F.filter (fun y => y ∉ r)).reverse ∧
      (∀ i, i ∉ F → s'.linked[i]? = s.linked[i]?) ∧ ∀ i, i ∈ r → s'.linked[i]? = some b.length := by
  have hSr : ∀ x, x ∈ S ↔ x ∈ r := by
    rcases hr with ⟨_, rfl⟩ | ⟨_, rfl⟩ <;> simp
  have hsub : ∀ x ∈ r, x ∈ F := fun x hx => hS.subset ((hSr x).2 hx)
  have hFne : F ≠ [] := by
    obtain ⟨x, hx⟩ := List.exists_mem_of_ne_nil _ hne
    intro hF
    have := hsub x hx
    rw [hF] at this
    simp at this
  have hlenS : S.length = r.length := by
    rcases hr with ⟨_, rfl⟩ | ⟨_, rfl⟩ <;> simp
  unfold LSt.removeAll
  obtain ⟨lk1, m1, m2, m3, m4⟩ := markAll_ok s.removed r s.linked (fun x hx => by rw [h.llen]; exact h.lt x (hsub x hx))
  rw [m1]
  simp only [Except.bind]
  have hfl := h.fl hFne
  obtain ⟨c, W, rfl⟩ : ∃ c W, F = c :: W := by
    cases F with
    | nil => exact absurd rfl hFne
    | cons c W => exact ⟨_, _, rfl⟩
  have hst := h.first c rfl
  have hnx := FL.next (P := []) (c := c) (R := W) (by simpa using hfl)
  rw [hst, hnx]
  simp only
  have hord : (if isAscending r = true then r else r.reverse) = S := by
    rcases hr with ⟨hp, rfl⟩ | ⟨hp, rfl⟩
    · match S, hp with
      | [], _ => rfl
      | [_], _ => rfl
      | a :: b :: l, hp =>
        have := (List.pairwise_cons.1 hp).1 b (by simp)
        simp [isAscending, this]
    · match r, hp with
      | [], _ => rfl
      | [_], _ => rfl
      | a :: b :: l, hp =>
        have := (List.pairwise_cons.1 hp).1 b (by simp)
        simp only [isAscending, show ¬ a < b by omega, decide_false, Bool.false_eq_true, if_false]
  rw [hord]
  obtain ⟨f, u1, u2, u3⟩ := freeUpdateAll_ok S ⟨s.free, c, s.freeEnd, c, c, W.head?.getD c⟩ [] (c :: W)
    ⟨hfl, fun e he => by simpa using he, h.stop, fun c' R' hc => by
      simp only [List.cons.injEq] at hc
      obtain ⟨rfl, rfl⟩ := hc
      exact ⟨rfl, rfl, rfl⟩⟩ hS
  rw [u1]
  simp only at u2 ⊢
  have hfeq : (c :: W).filter (fun y => decide (y ∉ S)) = (c :: W).filter (fun y => decide (y ∉ r)) := by
    apply List.filter_congr
    intro y _
    simp [hSr]
  rw [hfeq, List.nil_append] at u3
  have hnd : (c :: W).Nodup := hfl.nodup
  have hcount : ((c :: W).filter (fun y => decide (y ∉ r))).length + r.length = (c :: W).length := by
    have h1 := List.length_eq_length_filter_add (l := c :: W) (fun y => decide (y ∈ r))
    have h2 : ((c :: W).filter (fun y => decide (y ∈ r))).length = r.length := by
      rw [← hlenS]
      apply List.Perm.length_eq
      rw [List.perm_ext_iff_of_nodup (hnd.filter _) (hnd.sublist hS)]
      intro a
      rw [List.mem_filter, decide_eq_true_eq, hSr]
      exact ⟨fun hh => hh.2, fun hh => ⟨hsub a hh, hh⟩⟩
    have h3 : ((c :: W).filter (fun y => decide (y ∉ r))) = (c :: W).filter (fun y => !decide (y ∈ r)) := by
      apply List.filter_congr
      intro y _
      simp
    rw [h3]
    omega
  rw [h.rem]
  have hrem : (c :: W).length - r.length = ((c :: W).filter (fun y => decide (y ∉ r))).length := by omega
  rw [hrem]
  have hlt' : ∀ x ∈ (c :: W).filter (fun y => decide (y ∉ r)), x < sis.length := fun x hx => h.lt x (List.mem_filter.1 hx).1
  have hasc' : ((c :: W).filter (fun y => decide (y ∉ r))).Pairwise (· < ·) := h.asc.sublist List.filter_sublist
  have hnotr : ∀ x ∈ (c :: W).filter (fun y => decide (y ∉ r)), x ∉ r := fun x hx => by simpa using (List.mem_filter.1 hx).2
  have hsubF : ∀ x ∈ (c :: W).filter (fun y => decide (y ∉ r)), x ∈ c :: W := fun x hx => (List.mem_filter.1 hx).1
  generalize (c :: W).filter (fun y => decide (y ∉ r)) = G at *
  cases G with
  | nil =>
    simp only [List.length_nil, gt_iff_lt, Nat.lt_irrefl, if_false]
    refine ⟨_, rfl, ⟨by rw [m2, h.llen], by rw [u2, h.flen], rfl, by simp [h.removed], by simp, by simp, by simp, by simp, by simp⟩, trivial, ?_, ?_⟩
    · intro i hi
      exact m3 i (fun hh => hi (hsub i hh))
    · intro i hi
      rw [← h.removed]
      exact m4 i hi
  | cons d G =>
    obtain ⟨v1, v2, v3⟩ := u3 (by simp)
    have hfs := v2 d rfl
    simp only [List.length_cons, gt_iff_lt, Nat.succ_pos, if_true]
    have hGl : (d :: G).length ≤ f.free.length := nodup_len v1.nodup v1.lt
    simp only [List.length_cons] at hGl
    obtain ⟨lk2, w1, w2, w3, w4⟩ := relink_ok G d (f.free.length + 1) d [] lk1 v1 (by omega) (fun x hx => by rw [m2, h.llen]; exact hlt' x hx) (by simp) trivial (by simp)
    rw [hfs, w1]
    simp only
    refine ⟨_, rfl, ⟨by rw [w2, m2, h.llen], by rw [u2, h.flen], rfl, by simp [h.removed], hasc', hlt', fun _ => v1, by simp, v3⟩, by simpa using w3, ?_, ?_⟩
    · intro i hi
      rw [w4 i (fun hh => hi (hsubF i hh))]
      exact m3 i (fun hh => hi (hsub i hh))
    · intro i hi
      rw [← h.removed, w4 i (fun hh => hnotr i hh hi)]
      exact m4 i hi

/-- The subsequences so far are longest ones. -/
def LPart (sis F dpi : List Nat) (b : List Bool) : Prop :=
  ∀ (k : Nat) (S : List Nat), k < b.length → S.Pairwise (· < ·) → (∀ i ∈ S, i ∈ F ∨ ∃ m : Nat, dpi[i]? = some m ∧ k ≤ m) →
    (S.Pairwise (fun i j => ptY sis i < ptY sis j) ∨ S.Pairwise (fun i j => ptY sis j < ptY sis i)) →
    ∃ T : List Nat, T.Nodup ∧ (∀ i ∈ T, i ∉ F ∧ dpi[i]? = some k) ∧ S.length ≤ T.length

theorem LPart.step {sis F F' dpi dpi' seq : List Nat} {b : List Bool} {bit : Bool} (h : LPart sis F dpi b) (hp : Part sis F dpi b) (hnd : seq.Nodup) (hsub : ∀ x ∈ seq, x ∈ F)
    (hF : ∀ x, x ∈ F' ↔ x ∈ F ∧ x ∉ seq) (hold : ∀ i : Nat, i ∉ F → dpi'[i]? = dpi[i]?) (hnew : ∀ i : Nat, i ∈ seq → dpi'[i]? = some b.length)
    (hlong : ∀ S : List Nat, S.Pairwise (· < ·) → (∀ i ∈ S, i ∈ F) → (S.Pairwise (fun i j => ptY sis i < ptY sis j) ∨ S.Pairwise (fun i j => ptY sis j < ptY sis i)) →
      S.length ≤ seq.length) : LPart sis F' dpi' (b ++ [bit]) := by
  intro k S hk hS hmem hmono
  rw [List.length_append, List.length_singleton] at hk
  by_cases hkb : k = b.length
  · subst hkb
    refine ⟨seq, hnd, fun i hi => ⟨fun hh => ((hF i).1 hh).2 hi, hnew i hi⟩, hlong S hS ?_ hmono⟩
    intro i hi
    rcases hmem i hi with hh | ⟨m, hm, hkm⟩
    · exact ((hF i).1 hh).1
    · by_cases hiF : i ∈ F
      · exact hiF
      · rw [hold i hiF] at hm
        have := hp.lt i m hiF hm
        omega
  · obtain ⟨T, t1, t2, t3⟩ := h k S (by omega) hS (by
      intro i hi
      by_cases hiF : i ∈ F
      · exact .inl hiF
      · rcases hmem i hi with hh | ⟨m, hm, hkm⟩
        · exact .inl ((hF i).1 hh).1
        · rw [hold i hiF] at hm
          exact .inr ⟨m, hm, hkm⟩) hmono
    refine ⟨T, t1, ?_, t3⟩
    intro i hi
    obtain ⟨h1, h2⟩ := t2 i hi
    exact ⟨fun hh => h1 ((hF i).1 hh).1, by rw [hold i h1]; exact h2⟩

theorem LPart.longest {sis dpi : List Nat} {b : List Bool} (h : LPart sis [] dpi b) (hd : Decomp sis dpi b) : Longest sis dpi := by
  intro k S hS hmem hmono
  by_cases hk : k < b.length
  · obtain ⟨T, t1, t2, t3⟩ := h k S hk hS (fun i hi => .inr (hmem i hi)) hmono
    refine Nat.le_trans t3 ?_
    apply (List.subperm_of_subset t1 ?_).length_le
    intro i hi
    have := (t2 i hi).2
    rw [List.mem_filter, List.mem_range, decide_eq_true_eq]
    exact ⟨(List.getElem?_eq_some_iff.1 this).1, this⟩
  · cases S with
    | nil => simp
    | cons i S =>
      obtain ⟨m, hm, hkm⟩ := hmem i (by simp)
      have := hd.lt i m hm
      omega

theorem rebuild_ok {sis : List Nat} {s : LSt} {F : List Nat} {b : List Bool} (h : OInv sis s F b) (hF : F ≠ []) (hsis : ∀ x, x < sis.length → ptY sis x < 2 ^ 64 - 1) (rev : Bool)
    (hlk : rev = false → Nx s.linked F.reverse) :
    ∃ s' Ls, s.rebuild sis rev = .ok s' ∧ OInv sis s' F b ∧ s'.layers = heads Ls ∧ s'.reverse = rev ∧ Lay sis rev s'.linked (if rev then F else F.reverse) Ls ∧
      ∀ i, i ∉ F → s'.linked[i]? = s.linked[i]? := by
  unfold LSt.rebuild
  rw [h.rem, if_pos (List.length_pos_iff.2 hF)]
  have hfl := h.fl hF
  have hlenF := nodup_len hfl.nodup h.lt
  obtain ⟨c, W, hcW⟩ : ∃ c W, (if rev then F else F.reverse) = c :: W := by
    cases hh : (if rev then F else F.reverse) with
    | nil => cases rev <;> simp_all
    | cons c W => exact ⟨_, _, rfl⟩
  have hmem : ∀ x, x ∈ c :: W ↔ x ∈ F := by
    intro x
    rw [← hcW]
    cases rev <;> simp
  have hlenW : (c :: W).length = F.length := by
    rw [← hcW]
    cases rev <;> simp
  have hp : (c :: W).Pairwise (fun a b => ptX sis rev b < ptX sis rev a) := by
    rw [← hcW]
    cases rev with
    | false =>
      simp only [Bool.false_eq_true, if_false, List.pairwise_reverse, ptX]
      exact h.asc
    | true =>
      simp only [if_true, ptX]
      refine List.Pairwise.imp_of_mem ?_ h.asc
      intro a b ha hb hab
      have := h.lt a ha
      have := h.lt b hb
      omega
  have hhead : (if rev then s.freeStart else s.freeEnd) = c := by
    cases rev with
    | false =>
      simp only [Bool.false_eq_true, if_false] at *
      apply h.stop
      have := congrArg List.head? hcW
      simpa using this
    | true =>
      simp only [if_true] at *
      exact h.first c (by rw [hcW]; rfl)
  have hlast : (c :: W).getLast? = some (if rev then s.freeEnd else s.freeStart) := by
    rw [← hcW]
    cases rev with
    | false =>
      simp only [Bool.false_eq_true, if_false, List.getLast?_reverse]
      cases F with
      | nil => exact absurd rfl hF
      | cons a l => simpa using (h.first a rfl).symm
    | true =>
      simp only [if_true]
      rw [List.getLast?_eq_some_getLast hF, h.stop _ (List.getLast?_eq_some_getLast hF)]
  have hlay : Lay sis rev s.linked [] [] := ⟨by simp, by simp, by simp, by simp, by simp⟩
  simp only [List.length_cons] at hlenW
  obtain ⟨lk, Ls, r1, r2, r3, r4⟩ := rebuildLoop_ok (free := s.free) (rev := rev) hsis W c (s.linked.length + 1) s.freeStart s.freeEnd [] s.linked [] (by rw [h.llen]; omega) h.llen
    (fun x hx => h.lt x ((hmem x).1 hx)) (by simpa using hp) hlay hhead hlast (by
      rw [← hcW]
      cases rev with
      | false => exact hlk rfl
      | true => exact hfl.nx) (by
      cases rev with
      | false => exact h.llen
      | true => exact h.flen)
  have ha : aOf sis [] = [2 ^ 64 - 1] := rfl
  have hh : heads [] = [] := rfl
  rw [ha, hh] at r1
  rw [r1]
  simp only [Except.bind]
  refine ⟨_, Ls, rfl, ⟨by rw [r3, h.llen], h.flen, rfl, h.removed, h.asc, h.lt, h.fl, h.first, h.stop⟩, rfl, rfl, ?_, ?_⟩
  · rw [hcW]; simpa using r2
  · intro i hi
    exact r4 i (fun hh => hi ((hmem i).1 hh))

theorem optLoop_ok {sis : List Nat} (hsis : ∀ x, x < sis.length → ptY sis x < 2 ^ 64 - 1) : ∀ (fuel : Nat) (s : LSt) (F : List Nat) (b : List Bool), F.length < fuel →
    OInv sis s F b → Nx s.linked F.reverse → Part sis F s.linked b.reverse → LPart sis F s.linked b.reverse →
    ∃ dpi' b', optLoop sis fuel s b = .ok (dpi', b') ∧ Decomp sis dpi' b' ∧ Longest sis dpi'
  | fuel + 1, s, F, b, hf, h, hlk, hp, hlp => by
    rw [optLoop, h.rem]
    by_cases hF : F = []
    · subst hF
      simp only [List.length_nil, gt_iff_lt, Nat.lt_irrefl, if_false]
      exact ⟨_, _, rfl, hp.decomp, hlp.longest hp.decomp⟩
    · rw [if_pos (List.length_pos_iff.2 hF)]
      have hnodup : F.Nodup := h.asc.imp (fun hh => Nat.ne_of_lt hh)
      obtain ⟨s1, Ls1, a1, a2, a3, a4, a5, a6⟩ := rebuild_ok h hF hsis false (fun _ => hlk)
      rw [a1]
      simp only [Except.bind, Bool.false_eq_true, if_false] at a5 ⊢
      obtain ⟨inc, i1, i2, i3, i4, i5⟩ := lis_ok (s := s1) (by rw [a4]; exact a5) a3 a2.llen (fun x hx => h.lt x (by simpa using hx)) (by simpa using hF)
      rw [i1]
      simp only
      obtain ⟨s2, Ls2, b1, b2, b3, b4, b5, b6⟩ := rebuild_ok a2 hF hsis true (by simp)
      rw [b1]
      simp only [if_true] at b5 ⊢
      obtain ⟨dec, j1, j2, j3, j4, j5⟩ := lis_ok (s := s2) (by rw [b4]; exact b5) b3 b2.llen h.lt hF
      rw [a4] at i5
      rw [b4] at j5
      simp only [ptX, Bool.false_eq_true, if_false, if_true] at i5 j5
      have i5a : inc.Pairwise (· < ·) := i5.imp And.left
      have j5a : dec.Pairwise (fun x y => y < x) := by
        refine List.Pairwise.imp_of_mem ?_ j5
        intro x y hx hy hxy
        have := hxy.1
        omega
      have i4' : ∀ x ∈ inc, x ∈ F := fun x hx => by simpa using i4 x hx
      have hlen : s2.layers.length = Ls2.length := by rw [b3]; simp [heads]
      rw [hlen]
      -- both candidates are longest of their kind
      have hup : ∀ S : List Nat, S.Pairwise (· < ·) → (∀ i ∈ S, i ∈ F) → S.Pairwise (fun i j => ptY sis i < ptY sis j) → S.length ≤ inc.length := by
        intro S h1 h2 h3
        rw [i2]
        refine a5.longest (fun x hx => by simpa using h2 x hx) ?_
        have := h1.and h3
        simpa [ptX] using this
      have hdown : ∀ S : List Nat, S.Pairwise (· < ·) → (∀ i ∈ S, i ∈ F) → S.Pairwise (fun i j => ptY sis j < ptY sis i) → S.length ≤ Ls2.length := by
        intro S h1 h2 h3
        rw [← List.length_reverse]
        refine b5.longest (C := S.reverse) (fun x hx => h2 x (by simpa using hx)) ?_
        rw [List.pairwise_reverse]
        refine List.Pairwise.imp_of_mem ?_ (h1.and h3)
        intro x y hx hy hxy
        have := h.lt x (h2 x hx)
        have := h.lt y (h2 y hy)
        simp only [ptX, if_true]
        exact ⟨by have := hxy.1; omega, hxy.2⟩
      have main : ∀ (r S : List Nat) (bit : Bool), r ≠ [] → S.Sublist F → ((r.Pairwise (· < ·) ∧ S = r) ∨ (r.Pairwise (fun a b => b < a) ∧ S = r.reverse)) →
          (∀ i j si sj : Nat, i ∈ r → j ∈ r → i < j → sis[i]? = some si → sis[j]? = some sj → if bit then sj < si else si < sj) →
          inc.length ≤ r.length → Ls2.length ≤ r.length →
          ∃ dpi' b', ((s2.removeAll r).bind fun s => optLoop sis fuel s (bit :: b)) = .ok (dpi', b') ∧ Decomp sis dpi' b' ∧ Longest sis dpi' := by
        intro r S bit hne hS hr hmono hl1 hl2
        obtain ⟨s3, c1, c2, c3, c4, c5⟩ := LSt.removeAll_ok b2 hne hS hr bit
        rw [c1]
        simp only [Except.bind]
        have hsub : ∀ x ∈ r, x ∈ F := by
          intro x hx
          rcases hr with ⟨_, rfl⟩ | ⟨_, rfl⟩
          · exact hS.subset hx
          · exact hS.subset (by simpa using hx)
        have hndr : r.Nodup := by
          rcases hr with ⟨hh, _⟩ | ⟨hh, _⟩
          · exact hh.imp (fun hh => Nat.ne_of_lt hh)
          · exact hh.imp (fun hh => Nat.ne_of_gt hh)
        have hlt : (F.filter (fun y => decide (y ∉ r))).length < fuel := by
          obtain ⟨x, hx⟩ := List.exists_mem_of_ne_nil _ hne
          have := List.length_filter_lt_length_iff_exists (p := fun y => decide (y ∉ r)) (l := F) |>.2 ⟨x, hsub x hx, by simp [hx]⟩
          omega
        have hFm : ∀ x, x ∈ F.filter (fun y => decide (y ∉ r)) ↔ x ∈ F ∧ x ∉ r := fun x => by rw [List.mem_filter]; simp
        have hold : ∀ i : Nat, i ∉ F → s3.linked[i]? = s.linked[i]? := fun i hi => by rw [c4 i hi, b6 i hi, a6 i hi]
        have hnew : ∀ i : Nat, i ∈ r → s3.linked[i]? = some b.reverse.length := fun i hi => by rw [List.length_reverse]; exact c5 i hi
        have hpart : Part sis (F.filter (fun y => decide (y ∉ r))) s3.linked ((bit :: b).reverse) := by
          rw [List.reverse_cons]
          exact hp.step hne hsub hFm (by rw [c2.llen, h.llen]) hold hnew hmono
        have hlpart : LPart sis (F.filter (fun y => decide (y ∉ r))) s3.linked ((bit :: b).reverse) := by
          rw [List.reverse_cons]
          refine hlp.step hp hndr hsub hFm hold hnew ?_
          intro T t1 t2 t3
          rcases t3 with t3 | t3
          · exact Nat.le_trans (hup T t1 t2 t3) hl1
          · exact Nat.le_trans (hdown T t1 t2 t3) hl2
        exact optLoop_ok hsis fuel s3 _ (bit :: b) hlt c2 c3 hpart hlpart
      have hval : ∀ i si : Nat, sis[i]? = some si → ptY sis i = si := by intro i si h; unfold ptY; rw [h]; rfl
      have hsubl : ∀ l : List Nat, l.Pairwise (· < ·) → (∀ x ∈ l, x ∈ F) → l.Sublist F := by
        intro l h1 h2
        have hsp := List.subperm_of_subset (h1.imp (fun hh => Nat.ne_of_lt hh)) h2
        exact List.sublist_of_subperm_of_pairwise hsp h1 h.asc
      by_cases hcmp : inc.length ≥ Ls2.length
      · rw [if_pos hcmp]
        refine main inc inc false i3 (hsubl inc i5a i4') (.inl ⟨i5a, rfl⟩) ?_ (Nat.le_refl _) hcmp
        intro i j si sj hi hj hij h1 h2
        simp only [Bool.false_eq_true, if_false]
        rw [← hval i si h1, ← hval j sj h2]
        rcases pw_mem i5 i hi j hj with e | e | e
        · omega
        · exact e.2
        · have := e.1; omega
      · rw [if_neg hcmp, j1]
        simp only
        have hrp : dec.reverse.Pairwise (· < ·) := by rw [List.pairwise_reverse]; exact j5a
        refine main dec dec.reverse true j3 (hsubl dec.reverse hrp (fun x hx => j4 x (by simpa using hx))) (.inr ⟨j5a, rfl⟩) ?_ (by omega) (by omega)
        intro i j si sj hi hj hij h1 h2
        simp only [if_true]
        rw [← hval i si h1, ← hval j sj h2]
        rcases pw_mem (j5a.and (j5.imp And.right)) i hi j hj with e | e | e
        · omega
        · have := e.1; omega
        · exact e.2

theorem init_ok (sis : List Nat) (hpos : 0 < sis.length) : OInv sis (LSt.init sis.length) (List.range sis.length) [] ∧ Nx (LSt.init sis.length).linked (List.range sis.length).reverse := by
  unfold LSt.init
  constructor
  · refine ⟨by simp, by simp, by simp, rfl, List.pairwise_lt_range, fun x hx => List.mem_range.1 hx, fun _ => ⟨?_, ?_, List.pairwise_lt_range, fun x hx => by simpa using hx⟩, ?_, ?_⟩
    · apply Nx.of_get
      intro k a b ha hb
      have hk := (List.getElem?_eq_some_iff.1 hb).1
      rw [List.length_range] at hk
      rw [List.getElem?_range (by omega)] at ha hb
      simp only [Option.some.injEq] at ha hb
      subst ha hb
      rw [List.getElem?_map, List.getElem?_range (by omega)]
      simp only [Option.map_some]
      rw [if_pos (by omega)]
    · intro e he
      rw [List.getLast?_range, if_neg (by omega)] at he
      simp only [Option.some.injEq] at he
      subst he
      rw [List.getElem?_map, List.getElem?_range (by omega)]
      simp
    · intro e he
      rw [List.head?_range, if_neg (by omega)] at he
      simpa using he
    · intro e he
      rw [List.getLast?_range, if_neg (by omega)] at he
      simpa using he
  · apply Nx.of_get
    intro k a b ha hb
    have hk := (List.getElem?_eq_some_iff.1 hb).1
    rw [List.length_reverse, List.length_range] at hk
    rw [List.getElem?_reverse (by simp; omega), List.length_range, List.getElem?_range (by omega)] at ha hb
    simp only [Option.some.injEq] at ha hb
    subst ha hb
    rw [List.getElem?_map, List.getElem?_range (by omega)]
    simp only [Option.map_some, Option.some.injEq]
    omega

theorem optimal_ok {sis : List Nat} (hperm : sis.Perm (List.range sis.length)) (hne : sis ≠ []) (hl : sis.length < 2 ^ 63) :
    ∃ dpi b, subseqOptimal sis = .ok (dpi, b) ∧ Decomp sis dpi b ∧ Longest sis dpi := by
  have hpos : 0 < sis.length := List.length_pos_iff.2 hne
  unfold subseqOptimal
  rw [if_neg (by omega)]
  obtain ⟨h1, h2⟩ := init_ok sis hpos
  refine optLoop_ok ?_ (sis.length + 1) _ (List.range sis.length) [] (by simp) h1 h2 (Part.start (by simp [LSt.init])) ?_
  · intro x hx
    unfold ptY
    rw [List.getElem?_eq_getElem hx]
    have : sis[x] ∈ List.range sis.length := hperm.subset (List.getElem_mem hx)
    rw [List.mem_range] at this
    simp only [Option.getD_some]
    omega
  · intro k S hk
    simp at hk

theorem optimal_decomposes (N : Nat) (hN : N ≤ 2 ^ 63) : Decomposes N subseqOptimal := by
  intro sis h1 h2 h3
  obtain ⟨dpi, b, e1, e2, _⟩ := optimal_ok h1 h2 (by omega)
  exact ⟨dpi, b, e1, e2⟩

end Esp
end Tdc
