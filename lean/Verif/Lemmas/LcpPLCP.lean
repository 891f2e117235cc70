import Verif.Model.LcpPLCP
import Verif.Lemmas.LcpGreedy
import Verif.Lemmas.LcpPeaks
import Verif.Props.CompLCP
import Mathlib.Tactic.ByContra

namespace Tdc
namespace LC

variable {th : Nat}

/-! ### PLCPStrategy: the slots -/

/-- the elements in the heap, by slot -/
def live (hs : List Slot) : List (Nat × Nat) := hs.filterMap id

@[simp] theorem live_nil : live [] = [] := rfl
@[simp] theorem live_none (hs : List Slot) : live (none :: hs) = live hs := rfl
@[simp] theorem live_some (x : Nat × Nat) (hs : List Slot) : live (some x :: hs) = x :: live hs := rfl
@[simp] theorem live_append (a b : List Slot) : live (a ++ b) = live a ++ live b := by simp [live]
theorem live_reverse (a : List Slot) : live a.reverse = (live a).reverse := by
  induction a with
  | nil => rfl
  | cons x a ih => cases x <;> simp [ih]

theorem poiTop_none : ∀ (hs : List Slot) (k : Nat), poiTop hs k = none ↔ live hs = []
  | [], k => by simp [poiTop]
  | none :: hs, k => by rw [poiTop, live_none]; exact poiTop_none hs (k + 1)
  | some x :: hs, k => by
    rw [poiTop, live_some]
    cases h : poiTop hs (k + 1) with
    | none => simp
    | some y => simp only; split <;> simp

theorem poiTop_spec : ∀ (hs : List Slot) (k no a l : Nat), poiTop hs k = some (no, a, l) →
    ∃ L R, hs = L ++ some (a, l) :: R ∧ no = k + L.length ∧ ∀ x ∈ live hs, x.2 ≤ l
  | [], k, no, a, l, h => by simp [poiTop] at h
  | none :: hs, k, no, a, l, h => by
    obtain ⟨L, R, e, e2, e3⟩ := poiTop_spec hs (k + 1) no a l h
    exact ⟨none :: L, R, by rw [e]; rfl, by rw [e2, List.length_cons]; omega, e3⟩
  | some x :: hs, k, no, a, l, h => by
    rw [poiTop] at h
    cases hh : poiTop hs (k + 1) with
    | none =>
      rw [hh] at h
      simp only [Option.some.injEq, Prod.mk.injEq] at h
      obtain ⟨rfl, rfl, rfl⟩ := h
      refine ⟨[], hs, rfl, by simp, ?_⟩
      rw [live_some, (poiTop_none hs (k + 1)).mp hh]
      intro y hy
      rw [List.mem_singleton] at hy
      subst hy
      exact Nat.le_refl _
    | some y =>
      rw [hh] at h
      obtain ⟨no', a', l'⟩ := y
      obtain ⟨L, R, e, e2, e3⟩ := poiTop_spec hs (k + 1) no' a' l' hh
      simp only at h
      by_cases hc : poiAbove x (a', l') = true
      · rw [if_pos hc] at h
        simp only [Option.some.injEq, Prod.mk.injEq] at h
        obtain ⟨rfl, rfl, rfl⟩ := h
        refine ⟨[], hs, rfl, by simp, ?_⟩
        have hx : l' ≤ x.2 := by
          unfold poiAbove at hc
          simp only at hc
          split at hc
          · omega
          · exact Nat.le_of_lt (of_decide_eq_true hc)
        intro y hy
        rw [live_some, List.mem_cons] at hy
        rcases hy with rfl | hy
        · exact Nat.le_refl _
        · exact Nat.le_trans (e3 y hy) hx
      · rw [if_neg hc] at h
        simp only [Option.some.injEq, Prod.mk.injEq] at h
        obtain ⟨rfl, rfl, rfl⟩ := h
        refine ⟨some x :: L, R, by rw [e]; rfl, by rw [e2, List.length_cons]; omega, ?_⟩
        have hx : x.2 ≤ l' := by
          unfold poiAbove at hc
          simp only at hc
          split at hc
          · omega
          · have := of_decide_eq_false (Bool.eq_false_iff.mpr hc)
            omega
        intro y hy
        rw [live_some, List.mem_cons] at hy
        rcases hy with rfl | hy
        · exact hx
        · exact e3 y hy

/-- positions and ends increase -/
def PwOrd (l : List (Nat × Nat)) : Prop := l.Pairwise fun x y => x.1 < y.1 ∧ x.1 + x.2 ≤ y.1 + y.2

theorem poiRight_spec (b : Nat) : ∀ (R : List Slot) (nl : Nat) (ex : Bool), PwOrd (live R) →
    (live (poiRight b R nl ex).1).Sublist (live R) ∧
    (∀ x ∈ live (poiRight b R nl ex).1, b ≤ x.1) ∧
    (∀ x ∈ live R, b ≤ x.1 → x ∈ live (poiRight b R nl ex).1) ∧
    (∀ x ∈ live R, x.1 < b → x.1 + x.2 ≤ b + (poiRight b R nl ex).2.1) ∧
    nl ≤ (poiRight b R nl ex).2.1 ∧
    ((poiRight b R nl ex).2.1 = nl ∨ ∃ x ∈ live R, x.1 < b ∧ x.1 + x.2 = b + (poiRight b R nl ex).2.1) ∧
    ((poiRight b R nl ex).2.1 ≠ nl → ∃ R', (poiRight b R nl ex).1 = none :: R') ∧
    (ex = true → (poiRight b R nl ex).2.2 = true) ∧
    ((poiRight b R nl ex).2.2 = false → ∀ x ∈ live (poiRight b R nl ex).1, b < x.1) ∧
    ((poiRight b R nl ex).2.2 = true → ex = true ∨ ∃ x ∈ live (poiRight b R nl ex).1, x.1 = b)
  | [], nl, ex, _ => by simp [poiRight]
  | none :: R, nl, ex, h => by
    obtain ⟨a1, a2, a3, a4, a5, a6, a7, a8, a9, a10⟩ := poiRight_spec b R nl ex h
    rw [poiRight]
    exact ⟨a1, a2, a3, a4, a5, a6, fun _ => ⟨_, rfl⟩, a8, a9, a10⟩
  | some x :: R, nl, ex, h => by
    rw [live_some, PwOrd, List.pairwise_cons] at h
    rw [poiRight]
    by_cases h1 : x.1 < b
    · rw [if_pos h1]
      obtain ⟨a1, a2, a3, a4, a5, a6, a7, a8, a9, a10⟩ := poiRight_spec b R (if x.2 + x.1 > b then max (x.2 + x.1 - b) nl else nl) ex h.2
      simp only [live_none, live_some]
      generalize poiRight b R (if x.2 + x.1 > b then max (x.2 + x.1 - b) nl else nl) ex = r at *
      have hnl : nl ≤ (if x.2 + x.1 > b then max (x.2 + x.1 - b) nl else nl) := by split <;> omega
      have hx : x.1 + x.2 ≤ b + (if x.2 + x.1 > b then max (x.2 + x.1 - b) nl else nl) := by split <;> omega
      refine ⟨a1.cons _, a2, ?_, ?_, Nat.le_trans hnl a5, ?_, fun _ => ⟨_, rfl⟩, a8, a9, a10⟩
      · intro y hy hb
        rcases List.mem_cons.mp hy with rfl | hy
        · omega
        · exact a3 y hy hb
      · intro y hy hb
        rcases List.mem_cons.mp hy with rfl | hy
        · omega
        · exact a4 y hy hb
      · rcases a6 with a6 | ⟨y, hy, hy1, hy2⟩
        · split at a6
          · rename_i hc
            rcases Nat.le_total (x.2 + x.1 - b) nl with hm | hm
            · left; omega
            · right; exact ⟨x, List.mem_cons_self, h1, by omega⟩
          · left; exact a6
        · right; exact ⟨y, List.mem_cons_of_mem _ hy, hy1, hy2⟩
    · rw [if_neg h1]
      by_cases h2 : x.1 = b
      · rw [if_pos h2]
        obtain ⟨a1, a2, a3, a4, a5, a6, a7, a8, a9, a10⟩ := poiRight_spec b R nl true h.2
        simp only [live_some]
        generalize poiRight b R nl true = r at *
        have hgt : ∀ y ∈ live R, b < y.1 := fun y hy => by have := (h.1 y hy).1; omega
        have hr : r.2.1 = nl := by
          rcases a6 with a6 | ⟨y, hy, hy1, -⟩
          · exact a6
          · have := hgt y hy; omega
        refine ⟨a1.cons_cons _, ?_, ?_, ?_, by omega, Or.inl hr, fun hc => absurd hr hc, fun _ => a8 rfl, ?_, fun _ => Or.inr ⟨x, List.mem_cons_self, h2⟩⟩
        · intro y hy
          rcases List.mem_cons.mp hy with rfl | hy
          · omega
          · exact a2 y hy
        · intro y hy hb
          rcases List.mem_cons.mp hy with rfl | hy
          · exact List.mem_cons_self
          · exact List.mem_cons_of_mem _ (a3 y hy hb)
        · intro y hy hb
          rcases List.mem_cons.mp hy with rfl | hy
          · omega
          · exact a4 y hy hb
        · intro hc
          rw [a8 rfl] at hc
          cases hc
      · rw [if_neg h2]
        have hgt : ∀ y ∈ live (some x :: R), b < y.1 := fun y hy => by
          rcases List.mem_cons.mp hy with rfl | hy
          · omega
          · have := (h.1 y hy).1; omega
        refine ⟨List.Sublist.refl _, fun y hy => Nat.le_of_lt (hgt y hy), fun y hy _ => hy, fun y hy hb => ?_, Nat.le_refl _, Or.inl rfl, fun hc => absurd rfl hc, fun h => h,
          fun _ => hgt, fun h => Or.inl h⟩
        have := hgt y hy
        omega

/-! the left side -/

/-- what happens to an element left of `a` -/
def clip (th a : Nat) (x : Nat × Nat) : Option (Nat × Nat) :=
  if a - x.1 < x.2 then (if a - x.1 < th then none else some (x.1, a - x.1)) else some x

theorem poiLeft_right (th a : Nat) : ∀ X Y : List Slot, (∀ x ∈ live X, a < x.1) → poiLeft th a (X ++ Y) = X ++ poiLeft th a Y
  | [], _, _ => rfl
  | none :: X, Y, h => by
    rw [List.cons_append, poiLeft, poiLeft_right th a X Y h, List.cons_append]
  | some x :: X, Y, h => by
    rw [List.cons_append, poiLeft, if_pos (h x List.mem_cons_self), poiLeft_right th a X Y (fun y hy => h y (List.mem_cons_of_mem _ hy)), List.cons_append]

theorem live_poiLeft (th a : Nat) : ∀ Y : List Slot, (∀ x ∈ live Y, x.1 < a) → (live Y).Pairwise (fun y x => x.1 + x.2 ≤ y.1 + y.2) →
    live (poiLeft th a Y) = (live Y).filterMap (clip th a)
  | [], _, _ => rfl
  | none :: Y, h, hp => by rw [poiLeft, live_none, live_none, live_poiLeft th a Y h hp]
  | some x :: Y, h, hp => by
    rw [live_some, List.pairwise_cons] at hp
    have hx := h x List.mem_cons_self
    rw [poiLeft, if_neg (by omega), live_some, List.filterMap_cons, clip]
    by_cases h1 : a - x.1 < x.2
    · rw [if_pos h1, if_pos h1]
      by_cases h2 : a - x.1 < th
      · rw [if_pos h2, live_none]
        exact live_poiLeft th a Y (fun y hy => h y (List.mem_cons_of_mem _ hy)) hp.2
      · rw [if_neg h2, live_some]
        simp only
        rw [live_poiLeft th a Y (fun y hy => h y (List.mem_cons_of_mem _ hy)) hp.2]
    · rw [if_neg h1, if_neg h1, live_some]
      simp only
      congr 1
      have hid : ∀ y ∈ live Y, clip th a y = some y := by
        intro y hy
        have hy1 := h y (List.mem_cons_of_mem _ hy)
        have := hp.1 y hy
        rw [clip, if_neg (by omega)]
      clear hp h h1 hx
      generalize live Y = m at hid ⊢
      induction m with
      | nil => rfl
      | cons y m ih =>
        rw [List.filterMap_cons, hid y List.mem_cons_self]
        simp only
        rw [← ih (fun z hz => hid z (List.mem_cons_of_mem _ hz))]

/-! ### One round -/

/-- `x` ends where a chosen factor starts -/
def Tight (C : List Factor) (x : Nat × Nat) : Prop := ∃ f ∈ C, f.pos = x.1 + x.2

def PRel (C : List Factor) (x y : Nat × Nat) : Prop := x.1 < y.1 ∧ x.1 + x.2 ≤ y.1 + y.2 ∧ (Tight C y ∨ x.2 < y.2)

theorem PRel.mono {C : List Factor} {x y : Nat × Nat} (f : Factor) (h : PRel C x y) : PRel (C ++ [f]) x y := by
  refine ⟨h.1, h.2.1, ?_⟩
  rcases h.2.2 with ⟨g, hg, e⟩ | h
  · exact Or.inl ⟨g, by simp [hg], e⟩
  · exact Or.inr h

/-- The state of a flush at `i` of the peaks collected from `r` on: `C` are the factors chosen so far. -/
structure FInv (P : Nat → Nat) (th r i : Nat) (C : List Factor) (H : List (Nat × Nat)) : Prop where
  pw : H.Pairwise (PRel C)
  el : ∀ x ∈ H, th ≤ x.2 ∧ x.2 ≤ P x.1 ∧ r ≤ x.1 ∧ x.1 + x.2 ≤ i
  dj : ∀ x ∈ H, ∀ f ∈ C, f.pos + f.len ≤ x.1 ∨ x.1 + x.2 ≤ f.pos
  bl : ∀ q l, th ≤ l → l ≤ P q → r ≤ q → q < i →
    (∃ f ∈ C, l ≤ f.len ∧ f.pos < q + l ∧ q < f.pos + f.len) ∨
      (∀ f ∈ C, ¬ (f.pos < q + l ∧ q < f.pos + f.len)) ∧ ∃ x ∈ H, x.1 ≤ q ∧ q < x.1 + x.2 ∧ l ≤ x.2
  gd : (∀ x ∈ H, x.1 + x.2 < i) ∨ C = []

theorem pw_get {C : List Factor} {H : List (Nat × Nat)} (h : H.Pairwise (PRel C)) {x y : Nat × Nat} (hx : x ∈ H) (hy : y ∈ H)
    (hlt : x.1 < y.1) : PRel C x y := by
  induction H with
  | nil => simp at hx
  | cons z H ih =>
    rw [List.pairwise_cons] at h
    rcases List.mem_cons.mp hx with ex | hx'
    · rcases List.mem_cons.mp hy with ey | hy'
      · rw [ex, ey] at hlt; omega
      · rw [ex]; exact h.1 y hy'
    · rcases List.mem_cons.mp hy with ey | hy'
      · have := (h.1 x hx').1; rw [ey] at hlt; omega
      · exact ih h.2 hx' hy'

/-- the right side -/
theorem rightSide_spec {P : Nat → Nat} {r i : Nat} {C : List Factor} (hth : 1 ≤ th) {L R : List Slot} {a l : Nat}
    (I : FInv P th r i C (live (L ++ some (a, l) :: R))) (hmax : ∀ x ∈ live (L ++ some (a, l) :: R), x.2 ≤ l) :
    ∃ R3, poiRightSide th i (L ++ some (a, l) :: R) L.length a l = .ok (L ++ some (a, l) :: R3) ∧
      (∀ y ∈ live R3, a + l ≤ y.1 ∧ (y ∈ live R ∨ (y.1 = a + l ∧ th ≤ y.2 ∧ ∃ x ∈ live R, x.1 < a + l ∧ x.1 + x.2 = y.1 + y.2))) ∧
      (∀ x ∈ live R, a + l ≤ x.1 → x ∈ live R3) ∧
      (∀ x ∈ live R, x.1 < a + l → a + l + th ≤ x.1 + x.2 → ∃ y ∈ live R3, y.1 = a + l ∧ x.1 + x.2 ≤ y.1 + y.2) ∧
      (live R3).Pairwise (PRel C) ∧ (live R3).length ≤ (live R).length ∧ (C = [] → live R = []) := by
  have hpw := I.pw
  rw [live_append, live_some, List.pairwise_append, List.pairwise_cons] at hpw
  obtain ⟨-, ⟨htop, hpR⟩, -⟩ := hpw
  have hempty : C = [] → live R = [] := by
    intro hC
    by_contra hne
    obtain ⟨x, hx⟩ := List.exists_mem_of_ne_nil _ hne
    have h1 := (htop x hx).2.2
    have h2 := hmax x (by simp [hx])
    rcases h1 with ⟨f, hf, -⟩ | h1
    · rw [hC] at hf; simp at hf
    · simp only at h1; omega
  have hord : PwOrd (live R) := hpR.imp fun h => ⟨h.1, h.2.1⟩
  have etake : (L ++ some (a, l) :: R).take (L.length + 1) = L ++ [some (a, l)] := by
    rw [List.take_append, List.take_of_length_le (by omega)]; simp
  have edrop : (L ++ some (a, l) :: R).drop (L.length + 1) = R := by
    rw [List.drop_append, List.drop_of_length_le (by omega)]; simp
  rw [poiRightSide, etake, edrop]
  by_cases hg : a + l < i
  · rw [if_pos hg]
    obtain ⟨a1, a2, a3, a4, a5, a6, a7, a8, a9, a10⟩ := poiRight_spec (a + l) R 0 false hord
    generalize poiRight (a + l) R 0 false = q at *
    by_cases hn : q.2.2 = false ∧ q.2.1 ≥ th
    · rw [if_pos hn]
      obtain ⟨R', hR'⟩ := a7 (by omega)
      obtain ⟨x0, hx0, hx1, hx2⟩ := a6.resolve_left (by omega)
      have hlive : live q.1 = live R' := by rw [hR']; rfl
      refine ⟨some (a + l, q.2.1) :: R', ?_, ?_, ?_, ?_, ?_, ?_, hempty⟩
      · rw [poiEmplace, hR']
        have e1 : (L ++ [some (a, l)] ++ none :: R')[L.length + 1]? = some none := by
          rw [List.getElem?_append_right (by simp)]
          simp
        rw [e1]
        simp only
        congr 1
        rw [List.set_append_right _ _ (by simp)]
        simp
      · intro y hy
        rcases List.mem_cons.mp hy with rfl | hy
        · exact ⟨Nat.le_refl _, Or.inr ⟨rfl, hn.2, x0, hx0, hx1, hx2⟩⟩
        · replace hy : y ∈ live R' := hy
          rw [← hlive] at hy
          exact ⟨a2 y hy, Or.inl (a1.mem hy)⟩
      · intro x hx hb
        refine List.mem_cons_of_mem _ ?_
        show x ∈ live R'
        rw [← hlive]
        exact a3 x hx hb
      · intro x hx hb _
        exact ⟨_, List.mem_cons_self, rfl, a4 x hx hb⟩
      · rw [live_some, List.pairwise_cons, ← hlive]
        refine ⟨?_, hpR.sublist a1⟩
        intro y hy
        have hy1 := a9 hn.1 y hy
        have hrel := pw_get hpR hx0 (a1.mem hy) (by omega)
        refine ⟨hy1, ?_, ?_⟩
        · show a + l + q.2.1 ≤ _
          have := hrel.2.1
          omega
        · rcases hrel.2.2 with h | h
          · exact Or.inl h
          · right
            show q.2.1 < _
            omega
      · rw [live_some, List.length_cons, ← hlive]
        have h1 := a1.length_le
        rcases Nat.lt_or_ge (live q.1).length (live R).length with h | h
        · exact h
        · exfalso
          have h2 := a1.eq_of_length (by omega)
          rw [← h2] at hx0
          have := a2 x0 hx0
          omega
    · rw [if_neg hn]
      refine ⟨q.1, by simp, fun y hy => ⟨a2 y hy, Or.inl (a1.mem hy)⟩, a3, ?_, hpR.sublist a1, a1.length_le, hempty⟩
      intro x hx hb hle
      have h4 := a4 x hx hb
      have hex : q.2.2 = true := by
        cases h : q.2.2 with
        | true => rfl
        | false => exact absurd ⟨h, by omega⟩ hn
      obtain ⟨z, hz, hz1⟩ := (a10 hex).resolve_left (by simp)
      have := (pw_get hpR hx (a1.mem hz) (by omega)).2.1
      exact ⟨z, hz, hz1, this⟩
  · rw [if_neg hg]
    simp only
    rw [if_neg (by omega)]
    have hR : live R = [] := by
      rcases I.gd with h | h
      · have := h (a, l) (by simp)
        simp only at this
        omega
      · exact hempty h
    refine ⟨R, by simp, ?_, fun x hx _ => hx, ?_, hpR, Nat.le_refl _, hempty⟩
    · intro y hy; rw [hR] at hy; simp at hy
    · intro y hy; rw [hR] at hy; simp at hy

theorem clip_some {a : Nat} {x y : Nat × Nat} (hx : x.1 < a) (h : clip th a x = some y) (hle : th ≤ x.2) :
    y.1 = x.1 ∧ y.2 ≤ x.2 ∧ th ≤ y.2 ∧ y.1 + y.2 ≤ a ∧ (y = x ∨ y.1 + y.2 = a) ∧ y.1 + y.2 = min (x.1 + x.2) a := by
  unfold clip at h
  by_cases h1 : a - x.1 < x.2
  · rw [if_pos h1] at h
    by_cases h2 : a - x.1 < th
    · rw [if_pos h2] at h; cases h
    · rw [if_neg h2, Option.some.injEq] at h
      subst h
      exact ⟨rfl, Nat.le_of_lt h1, by simp only; omega, by simp only; omega, Or.inr (by simp only; omega), by simp only; omega⟩
  · rw [if_neg h1, Option.some.injEq] at h
    subst h
    exact ⟨rfl, Nat.le_refl _, hle, by omega, Or.inl rfl, by omega⟩

theorem round_spec {P : Nat → Nat} {n r i : Nat} {C : List Factor} (hth : 1 ≤ th) (hi : i + 1 < n)
    (hmono : ∀ p q, p ≤ q → q + 1 < n → P p ≤ P q + (q - p)) {L R : List Slot} {a l s : Nat}
    (I : FInv P th r i C (live (L ++ some (a, l) :: R))) (hmax : ∀ x ∈ live (L ++ some (a, l) :: R), x.2 ≤ l) :
    ∃ R3, poiRightSide th i (L ++ some (a, l) :: R) L.length a l = .ok (L ++ some (a, l) :: R3) ∧
      ∀ hs', hs' = (poiLeft th a ((L ++ some (a, l) :: R3).set L.length none).reverse).reverse →
      FInv P th r i (C ++ [⟨a, s, l⟩]) (live hs') ∧ (live hs').length < (live (L ++ some (a, l) :: R)).length := by
  obtain ⟨R3, e, b1, b2, b3, b4, b5, b6⟩ := rightSide_spec hth I hmax
  refine ⟨R3, e, ?_⟩
  intro hs' hhs'
  have hpw := I.pw
  rw [live_append, live_some, List.pairwise_append, List.pairwise_cons] at hpw
  obtain ⟨hpL, ⟨htop, hpR⟩, hLR⟩ := hpw
  have htopel := I.el (a, l) (by simp)
  simp only at htopel
  have hLlt : ∀ x ∈ live L, x.1 < a := fun x hx => (hLR x hx (a, l) (by simp)).1
  have hLel : ∀ x ∈ live L, th ≤ x.2 := fun x hx => (I.el x (by simp [hx])).1
  have hR3gt : ∀ x ∈ live R3.reverse, a < x.1 := by
    intro x hx
    rw [live_reverse, List.mem_reverse] at hx
    have := (b1 x hx).1
    omega
  have hlive : live hs' = (live L).filterMap (clip th a) ++ live R3 := by
    rw [hhs', List.set_append_right _ _ (Nat.le_refl _), Nat.sub_self, List.set_cons_zero, List.reverse_append, List.reverse_cons,
      List.append_assoc, poiLeft_right th a _ _ hR3gt, List.reverse_append, List.reverse_reverse, live_append,
      List.singleton_append, poiLeft, List.reverse_cons, live_append, live_reverse, live_poiLeft th a L.reverse]
    · rw [live_reverse, List.filterMap_reverse, List.reverse_reverse]
      simp
    · intro x hx
      rw [live_reverse, List.mem_reverse] at hx
      exact hLlt x hx
    · rw [live_reverse, List.pairwise_reverse]
      exact hpL.imp fun h => h.2.1
  have hmemL : ∀ y ∈ (live L).filterMap (clip th a), ∃ x ∈ live L, clip th a x = some y := by
    intro y hy
    rw [List.mem_filterMap] at hy
    exact hy
  have hnew : ∀ y ∈ live R3, y ∉ live R → Tight C y := by
    intro y hy hn
    obtain ⟨-, h | ⟨hy1, hy2, x0, hx0, hx1, hx2⟩⟩ := b1 y hy
    · exact absurd h hn
    · rcases (htop x0 hx0).2.2 with ⟨f, hf, h⟩ | h
      · exact ⟨f, hf, by omega⟩
      · have := hmax x0 (by simp [hx0])
        simp only at h
        omega
  rw [hlive]
  refine ⟨⟨?_, ?_, ?_, ?_, ?_⟩, ?_⟩
  · rw [List.pairwise_append]
    refine ⟨?_, b4.imp fun h => h.mono _, ?_⟩
    · rw [List.pairwise_filterMap]
      refine hpL.imp_of_mem ?_
      intro x y hx hy hxy x' hx' y' hy'
      obtain ⟨c1, c2, c3, c4, c5, c6⟩ := clip_some (hLlt x hx) hx' (hLel x hx)
      obtain ⟨d1, d2, d3, d4, d5, d6⟩ := clip_some (hLlt y hy) hy' (hLel y hy)
      have e1 := hxy.1
      have e2 := hxy.2.1
      refine ⟨by omega, by omega, ?_⟩
      rcases d5 with rfl | d5
      · rcases hxy.2.2 with ⟨f, hf, h⟩ | h
        · exact Or.inl ⟨f, by simp [hf], h⟩
        · exact Or.inr (by omega)
      · exact Or.inl ⟨⟨a, s, l⟩, by simp, by simp only; omega⟩
    · intro x' hx' y hy
      obtain ⟨x, hx, hcx⟩ := hmemL x' hx'
      obtain ⟨c1, c2, c3, c4, c5, c6⟩ := clip_some (hLlt x hx) hcx (hLel x hx)
      have h1 := hLlt x hx
      have h2 := (b1 y hy).1
      refine ⟨by omega, by omega, ?_⟩
      by_cases hyR : y ∈ live R
      · rcases (hLR x hx y (by simp [hyR])).2.2 with ⟨f, hf, h⟩ | h
        · exact Or.inl ⟨f, by simp [hf], h⟩
        · exact Or.inr (by omega)
      · obtain ⟨f, hf, h⟩ := hnew y hy hyR
        exact Or.inl ⟨f, by simp [hf], h⟩
  · intro y hy
    rcases List.mem_append.mp hy with hy | hy
    · obtain ⟨x, hx, hcx⟩ := hmemL y hy
      obtain ⟨c1, c2, c3, c4, c5, c6⟩ := clip_some (hLlt x hx) hcx (hLel x hx)
      obtain ⟨e1, e2, e3, e4⟩ := I.el x (by simp [hx])
      rw [c1]
      exact ⟨c3, by omega, e3, by omega⟩
    · obtain ⟨h1, h | ⟨hy1, hy2, x0, hx0, hx1, hx2⟩⟩ := b1 y hy
      · exact I.el y (by simp [h])
      · obtain ⟨e1, e2, e3, e4⟩ := I.el x0 (by simp [hx0])
        have := hmono x0.1 y.1 (by omega) (by omega)
        refine ⟨hy2, by omega, by omega, by omega⟩
  · intro y hy f hf
    rw [List.mem_append, List.mem_singleton] at hf
    rcases List.mem_append.mp hy with hy | hy
    · obtain ⟨x, hx, hcx⟩ := hmemL y hy
      obtain ⟨c1, c2, c3, c4, c5, c6⟩ := clip_some (hLlt x hx) hcx (hLel x hx)
      rcases hf with hf | rfl
      · have := I.dj x (by simp [hx]) f hf
        omega
      · right; exact c4
    · have h1 := (b1 y hy).1
      rcases hf with hf | rfl
      · rcases (b1 y hy).2 with h | ⟨hy1, hy2, x0, hx0, hx1, hx2⟩
        · exact I.dj y (by simp [h]) f hf
        · have := I.dj x0 (by simp [hx0]) f hf
          omega
      · left; exact h1
  · intro q k hk1 hk2 hq1 hq2
    rcases I.bl q k hk1 hk2 hq1 hq2 with ⟨f, hf, h⟩ | ⟨hno, x, hx, hxq, hqx, hkx⟩
    · exact Or.inl ⟨f, by simp [hf], h⟩
    · by_cases hhit : a < q + k ∧ q < a + l
      · exact Or.inl ⟨⟨a, s, l⟩, by simp, Nat.le_trans hkx (hmax x hx), hhit.1, hhit.2⟩
      · right
        refine ⟨?_, ?_⟩
        · intro f hf
          rw [List.mem_append, List.mem_singleton] at hf
          rcases hf with hf | rfl
          · exact hno f hf
          · exact hhit
        rw [live_append, live_some, List.mem_append, List.mem_cons] at hx
        rcases hx with hx | rfl | hx
        · -- a peak on the left
          have h1 := hLlt x hx
          have h2 := (hLR x hx (a, l) (by simp)).2.1
          simp only at h2
          by_cases h3 : a - x.1 < x.2
          · have hc : clip th a x = some (x.1, a - x.1) := by
              rw [clip, if_pos h3, if_neg (by omega)]
            refine ⟨_, List.mem_append_left _ (List.mem_filterMap.mpr ⟨x, hx, hc⟩), hxq, ?_, ?_⟩
            · show q < x.1 + (a - x.1)
              omega
            · show k ≤ a - x.1
              omega
          · have hc : clip th a x = some x := by rw [clip, if_neg h3]
            exact ⟨x, List.mem_append_left _ (List.mem_filterMap.mpr ⟨x, hx, hc⟩), hxq, hqx, hkx⟩
        · simp only at hxq hqx
          omega
        · by_cases hxb : a + l ≤ x.1
          · exact ⟨x, List.mem_append_right _ (b2 x hx hxb), hxq, hqx, hkx⟩
          · have hx1 := (htop x hx).1
            simp only at hx1
            have ht : Tight C x := by
              rcases (htop x hx).2.2 with h | h
              · exact h
              · have := hmax x (by simp [hx])
                simp only at h
                omega
            obtain ⟨f, hf, hfe⟩ := ht
            have hnf := hno f hf
            obtain ⟨y, hy, hy1, hy2⟩ := b3 x hx (by omega) (by omega)
            exact ⟨y, List.mem_append_right _ hy, by omega, by omega, by omega⟩
  · left
    intro y hy
    rcases I.gd with hg | hg
    · rcases List.mem_append.mp hy with hy | hy
      · obtain ⟨x, hx, hcx⟩ := hmemL y hy
        obtain ⟨c1, c2, c3, c4, c5, c6⟩ := clip_some (hLlt x hx) hcx (hLel x hx)
        have := hg x (by simp [hx])
        omega
      · rcases (b1 y hy).2 with h | ⟨hy1, hy2, x0, hx0, hx1, hx2⟩
        · exact hg y (by simp [h])
        · have := hg x0 (by simp [hx0])
          omega
    · have hR := b6 hg
      rcases List.mem_append.mp hy with hy | hy
      · obtain ⟨x, hx, hcx⟩ := hmemL y hy
        obtain ⟨c1, c2, c3, c4, c5, c6⟩ := clip_some (hLlt x hx) hcx (hLel x hx)
        omega
      · rcases (b1 y hy).2 with h | ⟨hy1, hy2, x0, hx0, hx1, hx2⟩
        · rw [hR] at h; simp at h
        · rw [hR] at hx0; simp at hx0
  · have h1 := List.length_filterMap_le (clip th a) (live L)
    rw [List.length_append, live_append, live_some, List.length_append, List.length_cons]
    omega

/-! ### A whole flush -/

/-- a factor at `[r, i)` -/
def FOk (P : Nat → Nat) (A : TextArrays) (th r i : Nat) (f : Factor) : Prop :=
  th ≤ f.len ∧ f.len ≤ P f.pos ∧ r ≤ f.pos ∧ f.pos + f.len ≤ i ∧ ∃ k, A.sa[k + 1]? = some f.pos ∧ A.sa[k]? = some f.src

/-- `f` replaces some of the `l` characters at `q`, and is at least as long -/
def Blocks (q l : Nat) (f : Factor) : Prop := l ≤ f.len ∧ f.pos < q + l ∧ q < f.pos + f.len

theorem flush_spec {A : TextArrays} {P : Nat → Nat} {n r i : Nat} (hth : 1 ≤ th) (hi : i + 1 < n)
    (hmono : ∀ p q, p ≤ q → q + 1 < n → P p ≤ P q + (q - p))
    (hsrc : ∀ a, a + 1 < n → ∃ s, poiSource A a = .ok s ∧ ∃ k, A.sa[k + 1]? = some a ∧ A.sa[k]? = some s) (fuel : Nat) :
    ∀ (hs : List Slot) (C : List Factor), FInv P th r i C (live hs) → (live hs).length < fuel → (∀ f ∈ C, FOk P A th r i f) → C.Pairwise Disj →
    ∃ fs, poiFlush A th i fuel hs = .ok fs ∧ (∀ f ∈ C ++ fs, FOk P A th r i f) ∧ (C ++ fs).Pairwise Disj ∧
      ∀ q l, th ≤ l → l ≤ P q → r ≤ q → q < i → ∃ f ∈ C ++ fs, Blocks q l f := by
  induction fuel with
  | zero => intro hs C I h; omega
  | succ fuel ih =>
    intro hs C I hlen hC hd
    rw [poiFlush]
    cases htop : poiTop hs 0 with
    | none =>
      have hemp := (poiTop_none hs 0).mp htop
      refine ⟨[], rfl, by simpa using hC, by simpa using hd, ?_⟩
      intro q l h1 h2 h3 h4
      rcases I.bl q l h1 h2 h3 h4 with ⟨f, hf, h⟩ | ⟨-, x, hx, -⟩
      · exact ⟨f, by simpa using hf, h⟩
      · rw [hemp] at hx; simp at hx
    | some top =>
      obtain ⟨no, a, l⟩ := top
      obtain ⟨L, R, rfl, hno, hmax⟩ := poiTop_spec hs 0 no a l htop
      rw [Nat.zero_add] at hno
      subst hno
      obtain ⟨e1, e2, e3, e4⟩ := I.el (a, l) (by simp)
      simp only at e1 e2 e3 e4
      obtain ⟨s, es, k, hk1, hk2⟩ := hsrc a (by omega)
      obtain ⟨R3, er, hnext⟩ := round_spec (s := s) hth hi hmono I hmax
      obtain ⟨I', hlt⟩ := hnext _ rfl
      have hf : FOk P A th r i ⟨a, s, l⟩ := ⟨e1, e2, e3, e4, k, hk1, hk2⟩
      obtain ⟨fs, ef, g1, g2, g3⟩ := ih _ (C ++ [⟨a, s, l⟩]) I' (by omega)
        (by
          intro f hf'
          rcases List.mem_append.mp hf' with h | h
          · exact hC f h
          · rw [List.mem_singleton] at h; rw [h]; exact hf)
        (by
          rw [List.pairwise_append]
          refine ⟨hd, List.pairwise_singleton _ _, ?_⟩
          intro f hf' g hg
          rw [List.mem_singleton] at hg
          rw [hg]
          exact I.dj (a, l) (by simp) f hf')
      refine ⟨⟨a, s, l⟩ :: fs, ?_, ?_, ?_, ?_⟩
      · simp only
        rw [es]
        show (poiRightSide th i (L ++ some (a, l) :: R) L.length a l).bind _ = _
        rw [er]
        show (poiFlush A th i fuel (poiLeft th a ((L ++ some (a, l) :: R3).set L.length none).reverse).reverse).bind _ = _
        rw [ef]
        rfl
      · simpa using g1
      · simpa using g2
      · simpa using g3

/-! ### The outer loop -/

section
open CL RS

theorem plRead_spec (bv : BV) (h : bv.WF) (plcp : List Nat) (hn : plcp.length < 2 ^ 32) (hcnt : bv.bits.count true = plcp.length)
    (hk : ∀ j v : Nat, plcp[j]? = some v → v < 2 ^ 32 ∧ IsKth bv.bits true (j + 1) (v + 2 * j)) (it : FwdIt) (I : FwdInv bv it) (i : Nat)
    (hi : i < plcp.length) (hle : it.idx ≤ i) : ∃ it', plRead bv it i = .ok (plcp.getD i 0, it') ∧ FwdInv bv it' ∧ it'.idx = i := by
  have hm : max it.idx i = i := by omega
  rw [plRead, hm]
  obtain ⟨p, s', e, hidx, I', hp⟩ := nextSelect_spec bv h { it with idx := i } ⟨I.rank, by have := I.le; show it.rank ≤ i; omega, I.blk⟩ (by show i < _; omega)
  have hv : plcp[i]? = some (plcp.getD i 0) := by rw [List.getD_eq_getElem?_getD, List.getElem?_eq_getElem hi]; rfl
  obtain ⟨h1, h2⟩ := hk _ _ hv
  obtain rfl := h2.unique hp
  rw [e]
  refine ⟨s', ?_, I', hidx⟩
  show Except.ok (sadaPos (plcp.getD i 0 + 2 * i) i, s') = _
  rw [sadaPos_eq h1 (by omega)]

/-- the peaks collected from `r` up to `i` -/
structure ScanInv (P : Nat → Nat) (th r : Nat) (s : PLState) : Prop where
  pw : (live s.hs).Pairwise (PRel [])
  el : ∀ x ∈ live s.hs, th ≤ x.2 ∧ x.2 = P x.1 ∧ r ≤ x.1 ∧ x.1 < s.i ∧ x.1 + x.2 ≤ s.lastpos + s.lastlcp ∧ x.2 ≤ s.lastlcp
  last : (s.lastpos, s.lastlcp) ∈ live s.hs
  reach : s.i ≤ s.lastpos + s.lastlcp
  bl : ∀ q, r ≤ q → q < s.i → ∃ x ∈ live s.hs, x.1 ≤ q ∧ q < x.1 + x.2 ∧ P q ≤ x.2

theorem plLoop_spec {A : TextArrays} {bv : BV} (hbv : bv.WF) (plcp : List Nat) (n : Nat) (hpl : plcp.length = n) (hn : n < 2 ^ 32)
    (hcnt : bv.bits.count true = plcp.length)
    (hk : ∀ j v : Nat, plcp[j]? = some v → v < 2 ^ 32 ∧ IsKth bv.bits true (j + 1) (v + 2 * j)) (hth : 1 ≤ th)
    (hmono : ∀ p q, p ≤ q → q + 1 < n → plcp.getD p 0 ≤ plcp.getD q 0 + (q - p)) (hend : ∀ p, p + 1 < n → p + plcp.getD p 0 + 1 < n)
    (hsrc : ∀ a, a + 1 < n → ∃ s, poiSource A a = .ok s ∧ ∃ k, A.sa[k + 1]? = some a ∧ A.sa[k]? = some s) (fuel : Nat) :
    ∀ (s : PLState) (r : Nat), FwdInv bv s.it → s.it.idx ≤ s.i →
      (s.hs = [] ∧ r = s.i ∧ 2 * (n - s.i) < fuel ∨ ScanInv (fun q => plcp.getD q 0) th r s ∧ (r < s.i ∧ s.i < n) ∧ 2 * (n - s.i) + 1 < fuel) →
    ∃ fs, plLoop A bv th n fuel s = .ok fs ∧ (∀ f ∈ fs, FOk (fun q => plcp.getD q 0) A th r n f) ∧ fs.Pairwise Disj ∧
      ∀ q l, th ≤ l → l ≤ plcp.getD q 0 → r ≤ q → q + 1 < n → ∃ f ∈ fs, Blocks q l f := by
  induction fuel with
  | zero => intro s r _ _ h; omega
  | succ fuel ih =>
    intro s r hit hidx hst
    rw [plLoop]
    by_cases hi : s.i + 1 < n
    · rw [if_pos hi]
      obtain ⟨it', er, I', hidx'⟩ := plRead_spec bv hbv plcp (by omega) hcnt hk s.it hit s.i (by omega) hidx
      rw [er]
      show ∃ fs, (if poiTop s.hs 0 = none then _ else _) = _ ∧ _
      have hnew : ∀ v, v = plcp.getD s.i 0 → th ≤ v → s.hs = [] → ScanInv (fun q => plcp.getD q 0) th s.i ⟨s.i + 1, it', s.hs ++ [some (s.i, v)], s.i, v⟩ := by
        intro v hv hv2 hh
        have hl : live (s.hs ++ [some (s.i, v)]) = [(s.i, v)] := by rw [hh]; rfl
        refine ⟨?_, ?_, ?_, ?_, ?_⟩
        · show (live (s.hs ++ [some (s.i, v)])).Pairwise _
          rw [hl]
          exact List.pairwise_singleton _ _
        · intro x hx
          replace hx : x ∈ live (s.hs ++ [some (s.i, v)]) := hx
          rw [hl, List.mem_singleton] at hx
          subst hx
          exact ⟨hv2, hv, Nat.le_refl _, Nat.lt_succ_self _, Nat.le_refl _, Nat.le_refl _⟩
        · show (s.i, v) ∈ live (s.hs ++ [some (s.i, v)])
          rw [hl]; simp
        · show s.i + 1 ≤ s.i + v
          omega
        · intro q h1 h2
          replace h2 : q < s.i + 1 := h2
          obtain rfl : q = s.i := by omega
          refine ⟨(s.i, v), ?_, Nat.le_refl _, ?_, ?_⟩
          · show _ ∈ live (s.hs ++ [some (s.i, v)])
            rw [hl]; simp
          · show s.i < s.i + v
            omega
          · show plcp.getD s.i 0 ≤ v
            omega
      rcases hst with ⟨hh, rfl, hf⟩ | ⟨S, ⟨hr, -⟩, hf⟩
      · rw [if_pos ((poiTop_none s.hs 0).mpr (by rw [hh]; rfl))]
        by_cases hv : plcp.getD s.i 0 ≥ th
        · rw [if_pos hv]
          exact ih ⟨s.i + 1, it', s.hs ++ [some (s.i, plcp.getD s.i 0)], s.i, plcp.getD s.i 0⟩ s.i I' (by show it'.idx ≤ s.i + 1; omega)
            (Or.inr ⟨hnew _ rfl hv hh, ⟨Nat.lt_succ_self _, hi⟩, by show 2 * (n - (s.i + 1)) + 1 < fuel; omega⟩)
        · rw [if_neg hv]
          obtain ⟨fs, e, g1, g2, g3⟩ := ih { s with i := s.i + 1, it := it' } (s.i + 1) I' (by show it'.idx ≤ s.i + 1; omega)
            (Or.inl ⟨hh, rfl, by show 2 * (n - (s.i + 1)) < fuel; omega⟩)
          refine ⟨fs, e, ?_, g2, ?_⟩
          · intro f hf
            obtain ⟨a, b, c, d⟩ := g1 f hf
            exact ⟨a, b, by omega, d⟩
          · intro q l h1 h2 h3 h4
            by_cases hq : q = s.i
            · subst hq; omega
            · exact g3 q l h1 h2 (by omega) h4
      · have hne : poiTop s.hs 0 ≠ none := by
          intro hc
          have := S.last
          rw [(poiTop_none s.hs 0).mp hc] at this
          simp at this
        rw [if_neg hne]
        obtain ⟨l1, l2, l3, l4, -, -⟩ := S.el _ S.last
        simp only at l1 l2 l3 l4
        have hlend := hend s.lastpos (by omega)
        have hreach := S.reach
        by_cases hfl : s.i - s.lastpos ≥ s.lastlcp ∨ s.i + 1 = n
        · rw [if_pos hfl]
          have hie : s.lastpos + s.lastlcp = s.i := by omega
          have I : FInv (fun q => plcp.getD q 0) th r s.i [] (live s.hs) := by
            refine ⟨S.pw, ?_, ?_, ?_, Or.inr rfl⟩
            · intro x hx
              obtain ⟨a, b, c, d, e, f⟩ := S.el x hx
              exact ⟨a, Nat.le_of_eq b, c, by omega⟩
            · intro x _ f hf; simp at hf
            · intro q l h1 h2 h3 h4
              right
              refine ⟨by intro f hf; simp at hf, ?_⟩
              obtain ⟨x, hx, a, b, c⟩ := S.bl q h3 h4
              exact ⟨x, hx, a, b, Nat.le_trans h2 c⟩
          obtain ⟨fs, ef, f1, f2, f3⟩ := flush_spec (A := A) hth hi hmono hsrc (s.hs.length + 1) s.hs [] I
            (Nat.lt_succ_of_le (List.length_filterMap_le _ _)) (by intro f hf; simp at hf) List.Pairwise.nil
          rw [List.nil_append] at f1 f2 f3
          obtain ⟨gs, eg, g1, g2, g3⟩ := ih { s with it := it', hs := [] } s.i I' (by show it'.idx ≤ s.i; omega)
            (Or.inl ⟨rfl, rfl, by show 2 * (n - s.i) < fuel; omega⟩)
          rw [ef]
          show ∃ fs_1, (plLoop A bv th n fuel { s with it := it', hs := [] }).bind (fun gs => Except.ok (fs ++ gs)) = _ ∧ _
          rw [eg]
          refine ⟨fs ++ gs, rfl, ?_, ?_, ?_⟩
          · intro f hf
            rcases List.mem_append.mp hf with hf | hf
            · obtain ⟨a, b, c, d, e⟩ := f1 f hf
              exact ⟨a, b, c, by omega, e⟩
            · obtain ⟨a, b, c, d, e⟩ := g1 f hf
              exact ⟨a, b, by omega, d, e⟩
          · rw [List.pairwise_append]
            refine ⟨f2, g2, ?_⟩
            intro f hf g hg
            have h1 := (f1 f hf).2.2.2.1
            have h2 := (g1 g hg).2.2.1
            exact Or.inl (by omega)
          · intro q l h1 h2 h3 h4
            by_cases hq : q < s.i
            · obtain ⟨f, hf, hb⟩ := f3 q l h1 h2 h3 hq
              exact ⟨f, by simp [hf], hb⟩
            · obtain ⟨f, hf, hb⟩ := g3 q l h1 h2 (by omega) h4
              exact ⟨f, by simp [hf], hb⟩
        · rw [if_neg hfl]
          have hlt : s.i < s.lastpos + s.lastlcp := by omega
          by_cases hv : plcp.getD s.i 0 ≤ s.lastlcp
          · rw [if_pos hv]
            refine ih { s with i := s.i + 1, it := it' } r I' (by show it'.idx ≤ s.i + 1; omega) (Or.inr ⟨?_, ⟨by show r < s.i + 1; omega, hi⟩, by show 2 * (n - (s.i + 1)) + 1 < fuel; omega⟩)
            refine ⟨S.pw, ?_, S.last, by show s.i + 1 ≤ s.lastpos + s.lastlcp; omega, ?_⟩
            · intro x hx
              obtain ⟨a, b, c, d, e, f⟩ := S.el x hx
              exact ⟨a, b, c, by show x.1 < s.i + 1; omega, e, f⟩
            · intro q h1 h2
              replace h2 : q < s.i + 1 := h2
              by_cases hq : q = s.i
              · subst hq
                exact ⟨_, S.last, Nat.le_of_lt l4, hlt, hv⟩
              · exact S.bl q h1 (by omega)
          · rw [if_neg hv]
            refine ih ⟨s.i + 1, it', s.hs ++ [some (s.i, plcp.getD s.i 0)], s.i, plcp.getD s.i 0⟩ r I' (by show it'.idx ≤ s.i + 1; omega)
              (Or.inr ⟨?_, ⟨by show r < s.i + 1; omega, hi⟩, by show 2 * (n - (s.i + 1)) + 1 < fuel; omega⟩)
            have hl : live (s.hs ++ [some (s.i, plcp.getD s.i 0)]) = live s.hs ++ [(s.i, plcp.getD s.i 0)] := by rw [live_append]; rfl
            have hlast' : (s.i, plcp.getD s.i 0) ∈ live s.hs ++ [(s.i, plcp.getD s.i 0)] := by simp
            refine ⟨?_, ?_, ?_, ?_, ?_⟩
            · show (live (s.hs ++ [some (s.i, plcp.getD s.i 0)])).Pairwise _
              rw [hl, List.pairwise_append]
              refine ⟨S.pw, List.pairwise_singleton _ _, ?_⟩
              intro x hx y hy
              rw [List.mem_singleton] at hy
              subst hy
              obtain ⟨a, b, c, d, e, f⟩ := S.el x hx
              refine ⟨d, ?_, Or.inr ?_⟩
              · show _ ≤ s.i + plcp.getD s.i 0
                omega
              · show _ < plcp.getD s.i 0
                omega
            · intro x hx
              replace hx : x ∈ live (s.hs ++ [some (s.i, plcp.getD s.i 0)]) := hx
              rw [hl, List.mem_append, List.mem_singleton] at hx
              rcases hx with hx | rfl
              · obtain ⟨a, b, c, d, e, f⟩ := S.el x hx
                exact ⟨a, b, c, by show _ < s.i + 1; omega, by show _ ≤ s.i + plcp.getD s.i 0; omega, by show _ ≤ plcp.getD s.i 0; omega⟩
              · exact ⟨by show th ≤ plcp.getD s.i 0; omega, rfl, Nat.le_of_lt hr, Nat.lt_succ_self _, Nat.le_refl _, Nat.le_refl _⟩
            · show _ ∈ live (s.hs ++ [some (s.i, plcp.getD s.i 0)])
              rw [hl]; exact hlast'
            · show s.i + 1 ≤ s.i + plcp.getD s.i 0
              omega
            · intro q h1 h2
              replace h2 : q < s.i + 1 := h2
              show ∃ x ∈ live (s.hs ++ [some (s.i, plcp.getD s.i 0)]), _
              rw [hl]
              by_cases hq : q = s.i
              · subst hq
                exact ⟨_, hlast', Nat.le_refl _, by show s.i < s.i + plcp.getD s.i 0; omega, Nat.le_refl _⟩
              · obtain ⟨x, hx, h⟩ := S.bl q h1 (by omega)
                exact ⟨x, by simp [hx], h⟩
    · rw [if_neg hi]
      refine ⟨[], rfl, by intro f hf; simp at hf, List.Pairwise.nil, ?_⟩
      intro q l h1 h2 h3 h4
      exfalso
      rcases hst with ⟨-, rfl, -⟩ | ⟨S, ⟨hr, hin⟩, -⟩
      · omega
      · obtain ⟨a, b, c, d, -, -⟩ := S.el _ S.last
        simp only at b d
        have := hend s.lastpos (by omega)
        have := S.reach
        omega

end

/-! ### Greedy after sorting -/

theorem greedy_of_blocks {text : List UInt8} {sa : List Nat} (hsa : IsSA text sa) (P : Nat → Nat)
    (hP : ∀ k q j : Nat, sa[k + 1]? = some q → sa[k]? = some j → P q = lcpLen (text.drop q) (text.drop j)) (hth : 1 ≤ th)
    (hlast : ∀ k q : Nat, sa[k + 1]? = some q → q + 1 < text.length) : ∀ (rest pre : List Factor),
    (∀ f ∈ pre ++ rest, th ≤ f.len ∧ f.len ≤ P f.pos ∧ ∃ k, sa[k + 1]? = some f.pos ∧ sa[k]? = some f.src) → (pre ++ rest).Pairwise Disj →
    rest.Pairwise (fun a b => b.len ≤ a.len) →
    (∀ q l, th ≤ l → l ≤ P q → q + 1 < text.length → ∃ f ∈ pre ++ rest, Blocks q l f) → LcpGreedy text sa th pre rest := by
  have hcov : ∀ (pre : List Factor) (q j l : Nat), 1 ≤ l → Available text sa pre q j l → ∀ f ∈ pre, ¬ Blocks q l f := by
    rintro pre q j l hl1 ⟨-, -, h⟩ f hf ⟨h1, h2, h3⟩
    by_cases hle : q ≤ f.pos
    · exact h f.pos hle h2 ⟨f, hf, Nat.le_refl _, by omega⟩
    · exact h q (Nat.le_refl _) (by omega) ⟨f, hf, by omega, h3⟩
  intro rest
  induction rest with
  | nil =>
    intro pre hok hd hs hb q j l hav
    rcases Nat.lt_or_ge l th with h | h
    · exact h
    · exfalso
      obtain ⟨k, hk1, hk2⟩ := hav.1
      obtain ⟨f, hf, hbl⟩ := hb q l h (by rw [hP k q j hk1 hk2]; exact hav.2.1) (hlast k q hk1)
      rw [List.append_nil] at hf
      exact hcov pre q j l (by omega) hav f hf hbl
  | cons f rest ih =>
    intro pre hok hd hs hb
    rw [List.pairwise_cons] at hs
    obtain ⟨f1, f2, k, f3, f4⟩ := hok f (by simp)
    refine ⟨⟨⟨k, f3, f4⟩, by rw [← hP k _ _ f3 f4]; exact f2, ?_⟩, f1, ?_, ?_⟩
    · rintro x h1 h2 ⟨g, hg, h3, h4⟩
      have := (List.pairwise_append.mp hd).2.2 g hg f List.mem_cons_self
      unfold Disj at this
      omega
    · intro q j l hl hav
      obtain ⟨k, hk1, hk2⟩ := hav.1
      obtain ⟨g, hg, hbl⟩ := hb q l hl (by rw [hP k q j hk1 hk2]; exact hav.2.1) (hlast k q hk1)
      rcases List.mem_append.mp hg with hg | hg
      · exact absurd hbl (hcov pre q j l (by omega) hav g hg)
      · rcases List.mem_cons.mp hg with rfl | hg
        · exact hbl.1
        · exact Nat.le_trans hbl.1 (hs.1 g hg)
    · refine ih (pre ++ [f]) ?_ ?_ hs.2 ?_
      · simpa using hok
      · simpa using hd
      · simpa using hb

/-- the common prefix with the lexicographic predecessor ends before the last but one character -/
theorem lcp_pred_end {text : List UInt8} {sa : List Nat} (hsa : IsSA text sa) (hs : Sentinel text) {k q j : Nat} (hq : sa[k + 1]? = some q)
    (hj : sa[k]? = some j) : q + lcpLen (text.drop q) (text.drop j) + 1 < text.length := by
  have hql := hsa.lt _ (List.mem_of_getElem? hq)
  have hjl := hsa.lt _ (List.mem_of_getElem? hj)
  have hne : q ≠ j := by
    rintro rfl
    have := hsa.inj hq hj
    omega
  obtain ⟨h1, h2, -⟩ := hs.lcp_lt hql hjl hne
  have hlt := rank_lt hsa hq hj (Nat.le_refl _)
  by_contra hc
  have he : q + lcpLen (text.drop q) (text.drop j) = text.length - 1 := by omega
  have hd : text.drop (text.length - 1) = [0] := by
    obtain ⟨u, rfl, -⟩ := hs
    simp
  rw [he, hd, List.drop_eq_getElem_cons (by omega)] at hlt
  rcases List.cons_lt_cons_iff.mp hlt with h | ⟨-, h⟩
  · exact absurd h (by rw [UInt8.lt_iff_toNat_lt]; simp)
  · exact absurd h (by simp)

theorem plcpComp_spec {t : List UInt8} {A : TextArrays} (hA : ArraysOk t A) (hs : Sentinel t) (hth : 1 ≤ th) (h31 : t.length ≤ 2 ^ 31) :
    ∃ fs gs, plcpComp t A th = .ok fs ∧ gs.Perm fs ∧ LcpGreedy t A.sa th [] gs := by
  have hn := hs.len_pos
  have hsa := hA.isSA
  obtain ⟨plcp, bits, e, h1, h2, hl, h0, hv, hk⟩ := CL.sada_spec hsa hs h31
  -- neighbours of a position in the suffix array
  have hnb : ∀ a, a + 1 < t.length → ∃ k j : Nat, A.isa[a]? = some (k + 1) ∧ A.sa[k + 1]? = some a ∧ A.sa[k]? = some j := by
    intro a ha
    obtain ⟨k, hk, k1, k2⟩ := ArraysOk.rank hA (p := a) (by omega)
    have hk0 : k ≠ 0 := by
      rintro rfl
      rw [hsa.zero hs] at k2
      have : t.length - 1 = a := by simpa using k2
      omega
    obtain ⟨k, rfl⟩ := Nat.exists_eq_succ_of_ne_zero hk0
    obtain ⟨s, hs1, hs2⟩ := hsa.get (k := k) (by omega)
    exact ⟨k, s, k1, k2, hs1⟩
  have hsrc : ∀ a, a + 1 < t.length → ∃ s, poiSource A a = .ok s ∧ ∃ k, A.sa[k + 1]? = some a ∧ A.sa[k]? = some s := by
    intro a ha
    obtain ⟨k, s, k1, k2, k3⟩ := hnb a ha
    refine ⟨s, ?_, k, k2, k3⟩
    rw [poiSource, vget_ok k1]
    show (if k + 1 = 0 then Except.error Fault.ub else vget A.sa (k + 1 - 1)) = _
    rw [if_neg (by omega)]
    exact vget_ok k3
  have hP : ∀ k q j : Nat, A.sa[k + 1]? = some q → A.sa[k]? = some j → plcp.getD q 0 = lcpLen (t.drop q) (t.drop j) := by
    intro k q j hq hj
    rw [List.getD_eq_getElem?_getD, hv k q j hq hj]
    rfl
  have hend : ∀ p, p + 1 < t.length → p + plcp.getD p 0 + 1 < t.length := by
    intro p hp
    obtain ⟨k, j, -, k2, k3⟩ := hnb p hp
    rw [hP k p j k2 k3]
    exact lcp_pred_end hsa hs k2 k3
  have hstep : ∀ p, p + 1 + 1 < t.length → plcp.getD p 0 ≤ plcp.getD (p + 1) 0 + 1 := by
    intro p hp
    obtain ⟨k, j, -, k2, k3⟩ := hnb p (by omega)
    obtain ⟨k', j', -, k2', k3'⟩ := hnb (p + 1) hp
    rw [hP k p j k2 k3, hP k' (p + 1) j' k2' k3']
    have := plcp_step hsa hs (by omega) k2 k3 k2' k3'
    omega
  have hmono : ∀ p q, p ≤ q → q + 1 < t.length → plcp.getD p 0 ≤ plcp.getD q 0 + (q - p) := by
    intro p q hpq
    induction q, hpq using Nat.le_induction with
    | base => intro _; omega
    | succ q hq ih =>
      intro hq1
      have h1 := ih (by omega)
      have h2 := hstep q hq1
      omega
  obtain ⟨fs, ef, g1, g2, g3⟩ := plLoop_spec (A := A) (bv := RS.BV.ofBits bits) (th := th) (RS.ofBits_wf bits (by omega)) plcp t.length hl (by omega)
    (by rw [RS.ofBits_bits, h2, hl]) (by intro j v hj; rw [RS.ofBits_bits]; exact hk j v hj) hth hmono hend hsrc (2 * t.length + 1)
    ⟨0, ⟨0, 0, 0⟩, [], 0, 0⟩ 0 ⟨by simp, Nat.le_refl _, Nat.zero_le _⟩ (Nat.le_refl _) (Or.inl ⟨rfl, rfl, by show 2 * (t.length - 0) < _; omega⟩)
  have hperm : (fs.mergeSort fun a b => decide (b.len ≤ a.len)).Perm fs := List.mergeSort_perm _ _
  refine ⟨fs, fs.mergeSort fun a b => decide (b.len ≤ a.len), ?_, hperm, ?_⟩
  · rw [plcpComp, e, hsa.length]
    exact ef
  · refine greedy_of_blocks hsa (fun q => plcp.getD q 0) hP hth (fun k q hq => hsa.succ_lt hs hq) _ [] ?_ ?_ ?_ ?_
    · intro f hf
      rw [List.nil_append] at hf
      obtain ⟨a, b, -, -, c⟩ := g1 f (hperm.mem_iff.mp hf)
      exact ⟨a, b, c⟩
    · rw [List.nil_append]
      exact (hperm.pairwise_iff fun h => Disj.symm h).mpr g2
    · have := List.pairwise_mergeSort (le := fun a b : Factor => decide (b.len ≤ a.len)) (by intro a b c; simp only [decide_eq_true_eq]; omega)
        (by intro a b; simp only [Bool.or_eq_true, decide_eq_true_eq]; omega) fs
      exact this.imp fun h => of_decide_eq_true h
    · intro q l a b c
      obtain ⟨f, hf, h⟩ := g3 q l a b (Nat.zero_le _) c
      exact ⟨f, by rw [List.nil_append]; exact hperm.mem_iff.mpr hf, h⟩

end LC
end Tdc
