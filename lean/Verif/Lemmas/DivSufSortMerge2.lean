import Verif.Lemmas.DivSufSortMerge1
import Verif.Lemmas.DivSufSortSS3

/-! # `ss_inplacemerge` -/

namespace Tdc

open DSS

variable {cell : Int → Int} {T : List UInt8} {B : List Int}

/-- the cells from `f` on hold the numbers `js`, marked -/
def Mk (T : List UInt8) (B : List Int) (f : Nat) (js : List Nat) : Prop := ∀ k, k < js.length → B[f + k]? = marked T js k

/-- sorted by the substrings -/
def SortedK (T : List UInt8) (js : List Nat) : Prop := js.Pairwise (fun x y => ¬ bkey T y < bkey T x)

theorem Mk.frame {f : Nat} {js : List Nat} {B' : List Int} (h : Mk T B f js) (e : ∀ p, f ≤ p → p < f + js.length → B'[p]? = B[p]?) : Mk T B' f js := fun k hk => by
  rw [e _ (by omega) (by omega), h k hk]

theorem mk_append {f : Nat} {js ks : List Nat} (h : ∀ x ∈ js, ∀ y ∈ ks, bkey T x < bkey T y) : Mk T B f (js ++ ks) ↔ Mk T B f js ∧ Mk T B (f + js.length) ks := by
  constructor
  · intro H
    refine ⟨fun k hk => ?_, fun k hk => ?_⟩
    · rw [H k (by rw [List.length_append]; omega), marked_append h, if_pos hk]
    · rw [Nat.add_assoc, H (js.length + k) (by rw [List.length_append]; omega), marked_append h, if_neg (by omega), Nat.add_sub_cancel_left]
  · rintro ⟨H1, H2⟩ k hk
    rw [List.length_append] at hk
    rw [marked_append h]
    by_cases h1 : k < js.length
    · rw [if_pos h1, H1 k h1]
    · rw [if_neg h1, ← H2 _ (by omega)]
      congr 1
      omega

theorem sortedK_append {js ks : List Nat} : SortedK T (js ++ ks) ↔ SortedK T js ∧ SortedK T ks ∧ ∀ x ∈ js, ∀ y ∈ ks, ¬ bkey T y < bkey T x := List.pairwise_append

/-- how the marks of two lists change when they come together -/
theorem marked_left {js ks : List Nat} {k : Nat} (hk : k < js.length) : marked T (js ++ ks) k = marked T js k := by
  unfold marked
  rw [List.getElem?_append_left (l₁ := js) (i := k) hk, List.getElem?_append_left (l₁ := js) (i := k - 1) (by omega)]

theorem marked_right {js ks : List Nat} {j : Nat} (hj : 0 < j) : marked T (js ++ ks) (js.length + j) = marked T ks j := by
  unfold marked
  rw [List.getElem?_append_right (l₁ := js) (i := js.length + j) (by omega), List.getElem?_append_right (l₁ := js) (i := js.length + j - 1) (by omega)]
  have e1 : js.length + j - js.length = j := by omega
  have e2 : js.length + j - 1 - js.length = j - 1 := by omega
  rw [e1, e2]
  simp only [hj, (by omega : 0 < js.length + j)]

theorem marked_mid {js ks : List Nat} {p q : Nat} : marked T ((js ++ [p]) ++ q :: ks) (js ++ [p]).length = some (if bkey T p = bkey T q then -(q : Int) - 1 else q) := by
  rw [marked_eq (by simp)]
  have e1 : (js ++ [p] ++ q :: ks)[(js ++ [p]).length]'(by simp) = q := by
    rw [List.getElem_append_right (by omega)]
    simp
  have e2 : (js ++ [p] ++ q :: ks)[(js ++ [p]).length - 1]? = some p := by
    rw [List.getElem?_append_left (by simp), List.getElem?_append_right (by simp)]
    simp
  rw [e1, e2]
  simp

theorem marked_zero {q : Nat} {ks : List Nat} : marked T (q :: ks) 0 = some (q : Int) := by
  unfold marked
  simp

theorem unmark_marked {js : List Nat} {k : Nat} {v : Int} (hk : k < js.length) (h : marked T js k = some v) : unmark v = js[k] := by
  rw [marked_eq hk, Option.some.injEq] at h
  unfold unmark inv
  split at h <;> split_ifs <;> omega

theorem not_lt_trans {a b c : List UInt8} (h1 : ¬ b < a) (h2 : ¬ c < b) : ¬ c < a := by
  intro h
  rcases lex_total a b with h3 | h3 | h3
  · exact h2 (lex_trans h h3)
  · subst h3; exact h2 h
  · exact h1 h3

theorem lt_of_not_lt {a b c : List UInt8} (h1 : a < b) (h2 : ¬ c < b) : a < c := by
  rcases lex_total b c with h3 | h3 | h3
  · exact lex_trans h1 h3
  · subst h3; exact h1
  · exact absurd h3 h2

theorem lt_of_not_lt' {a b c : List UInt8} (h1 : ¬ b < a) (h2 : b < c) : a < c := by
  rcases lex_total a b with h3 | h3 | h3
  · exact lex_trans h3 h2
  · subst h3; exact h2
  · exact absurd h3 h1

/-- what is the same for all rounds -/
structure MEnv (T : List UInt8) (d : Nat) (B : List Int) (is : List Nat) : Prop where
  pos : HasPos T B
  len : B.length = T.length
  mem : ∀ x ∈ is, x + 1 < (bstars T).length
  same : SameFor T d is

theorem MEnv.sub {d : Nat} {is js : List Nat} {B' : List Int} (E : MEnv T d B is) (h : ∀ x ∈ js, x ∈ is) (hl : B'.length = B.length) (hp : ∀ p, (bstars T).length ≤ p → B'[p]? = B[p]?) : MEnv T d B' js :=
  ⟨fun x hx => by have := (divsufsort_bstars T).2; rw [hp _ (by omega)]; exact E.pos x hx, hl.trans E.len, fun x hx => E.mem x (h x hx), fun x hx y hy => E.same x (h x hx) y (h y hy)⟩

theorem ssBisect_spec {d : Nat} {L : List Nat} {p first : Nat} (E : MEnv T d B (p :: L)) (hL : Mk T B first L) (srt : SortedK T L) : ∀ (fuel a len : Nat) (r : Int), len < fuel →
    a + len ≤ L.length → (∀ i (h : i < L.length), i < a → bkey T L[i] < bkey T p) → (∀ i (h : i < L.length), a + len ≤ i → ¬ bkey T L[i] < bkey T p) →
    (∀ h : a + len < L.length, (r = 0 ↔ bkey T L[a + len] = bkey T p)) →
    ∃ (k : Nat) (r' : Int), ssBisect T ((T.length : Int) - (bstars T).length) d p B fuel (first + a) len r = .ok (first + k, r') ∧ k ≤ L.length ∧
      (∀ i (h : i < L.length), i < k → bkey T L[i] < bkey T p) ∧ (∀ i (h : i < L.length), k ≤ i → ¬ bkey T L[i] < bkey T p) ∧
      (∀ h : k < L.length, (r' = 0 ↔ bkey T L[k] = bkey T p))
  | 0, _, _, _, h, _, _, _, _ => by omega
  | fuel + 1, a, len, r, hf, hal, h1, h2, h3 => by
    unfold ssBisect
    by_cases h0 : 0 < len
    · rw [if_pos h0]
      have hi : a + len / 2 < L.length := by omega
      obtain ⟨v, hv⟩ : ∃ v, marked T L (a + len / 2) = some v := ⟨_, marked_eq hi⟩
      have hB := hL _ hi
      rw [hv] at hB
      have hmem := List.getElem_mem hi
      obtain ⟨q, e1, e2, e3⟩ := ssCompareAt_spec E.pos (E.mem L[a + len / 2] (List.mem_cons_of_mem _ hmem)) (E.mem p (by simp)) (E.same _ (List.mem_cons_of_mem _ hmem) p (by simp))
      have eb : first + a + len / 2 = first + (a + len / 2) := by omega
      rw [eb, sget_ok hB, DSS.bind_ok, unmark_marked hi hv, e1, DSS.bind_ok]
      have hmono : ∀ i j (h : i < L.length) (h' : j < L.length), i ≤ j → ¬ bkey T L[j] < bkey T L[i] := fun i j h h' hij => by
        rcases Nat.lt_or_eq_of_le hij with hlt | heq
        · exact List.pairwise_iff_getElem.mp srt i j h h' hlt
        · subst heq; exact lex_irrefl _
      by_cases hq : q < 0
      · rw [if_pos hq]
        have ea : first + (a + len / 2) + 1 = first + (a + len / 2 + 1) := by omega
        have el : a + len / 2 + 1 + (len / 2 - (1 - len % 2)) = a + len := by omega
        rw [ea]
        refine ssBisect_spec E hL srt fuel (a + len / 2 + 1) (len / 2 - (1 - len % 2)) r (by omega) (by omega) (fun i h hi' => ?_) (fun i h hi' => h2 i h (by omega)) (fun h => ?_)
        · exact lt_of_not_lt' (hmono i (a + len / 2) h hi (by omega)) (e2.mp hq)
        · have := h3 (by omega)
          rw [this]
          simp only [el]
      · rw [if_neg hq]
        refine ssBisect_spec E hL srt fuel a (len / 2) q (by omega) (by omega) h1 (fun i h hi' => ?_) (fun h => e3)
        exact not_lt_trans (fun h => hq (e2.mpr h)) (hmono _ i hi h hi')
    · rw [if_neg h0]
      have : len = 0 := by omega
      subst this
      exact ⟨a, r, rfl, by omega, h1, h2, h3⟩

/-- the loop that passes the marked ones -/
theorem ssRunHead_spec {R : List Nat} {a : Nat} (hR : Mk T B a R) : ∀ (n : Nat) (h : n < R.length), ∃ j, ssRunHead B (a + n + 1) = .ok (a + j) ∧ j ≤ n ∧ Head T R j ∧ ∀ q, j < q → q ≤ n → ¬ Head T R q
  | n, h => by
    obtain ⟨v, hv⟩ : ∃ v, marked T R n = some v := ⟨_, marked_eq h⟩
    have hB := hR n h
    rw [hv] at hB
    have hneg := marked_neg h hv
    unfold ssRunHead
    rw [sget_ok hB, DSS.bind_ok]
    by_cases h0 : v < 0
    · rw [if_pos h0]
      have hh := hneg.mp h0
      match n, h, hh with
      | 0, _, hh => exact absurd (fun x y h0 => absurd h0 (by omega)) hh
      | n + 1, h, hh =>
        obtain ⟨j, e1, e2, e3, e4⟩ := ssRunHead_spec hR n (by omega)
        refine ⟨j, e1, by omega, e3, fun q h1 h2 => ?_⟩
        by_cases hq : q = n + 1
        · subst hq; exact hh
        · exact e4 q h1 (by omega)
    · rw [if_neg h0]
      refine ⟨n, rfl, Nat.le_refl _, ?_, fun q h1 h2 => by omega⟩
      by_contra hc
      exact h0 (hneg.mpr hc)

/-- The first of the last run splits a sorted list in what is smaller than the last one, and what is the same. -/
theorem run_split {R : List Nat} (srt : SortedK T R) {j n : Nat} (hn : n + 1 = R.length) (hj : j ≤ n) (hh : Head T R j) (hrun : ∀ q, j < q → q ≤ n → ¬ Head T R q) :
    (∀ i (h : i < R.length), j ≤ i → bkey T R[i] = bkey T R[n]) ∧ (∀ i (h : i < R.length), i < j → bkey T R[i] < bkey T R[n]) := by
  have key : ∀ d i (h : i < R.length), i + d = n → j ≤ i → bkey T R[i] = bkey T R[n] := by
    intro d
    induction d with
    | zero => intro i h h1 h2; simp only [Nat.add_zero] at h1; subst h1; rfl
    | succ d ih =>
      intro i h h1 h2
      rw [← ih (i + 1) (by omega) (by omega) (by omega)]
      have := (not_head (by omega : i + 1 < R.length) (hrun (i + 1) (by omega) (by omega))).2
      rw [Nat.add_sub_cancel, List.getElem?_eq_getElem h, Option.map_some, Option.some.injEq] at this
      exact this
  refine ⟨fun i h hi => key (n - i) i h (by omega) hi, fun i h hi => ?_⟩
  have hmono : ∀ i j (h : i < R.length) (h' : j < R.length), i ≤ j → ¬ bkey T R[j] < bkey T R[i] := fun i j h h' hij => by
    rcases Nat.lt_or_eq_of_le hij with hlt | heq
    · exact List.pairwise_iff_getElem.mp srt i j h h' hlt
    · subst heq; exact lex_irrefl _
  have e := hh _ _ (by omega) (List.getElem?_eq_getElem (by omega : j - 1 < R.length)) (List.getElem?_eq_getElem (by omega : j < R.length))
  rw [← key (n - j) j (by omega) (by omega) (Nat.le_refl _)]
  have h1 := hmono i (j - 1) h (by omega) (by omega)
  have h2 := hmono (j - 1) j (by omega) (by omega) (by omega)
  refine lt_of_not_lt' h1 ?_
  rcases lex_total (bkey T R[j - 1]) (bkey T R[j]) with h3 | h3 | h3
  · exact h3
  · exact absurd h3 e
  · exact absurd h3 h2

end Tdc
