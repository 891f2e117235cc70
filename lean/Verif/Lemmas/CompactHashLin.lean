import Mathlib.Order.Interval.Finset.Nat
import Mathlib.Data.Finset.Card
import Mathlib.Tactic.Linarith

/-!
# Groups of a compact hash table, seen from an empty position

Positions are numbered from the position behind an empty one, so that no cluster wraps around.
-/

namespace Tdc.CSH

/-- `occ x`: position `x` is in use; `hr x`: home address of its entry. -/
structure LinInv (cap : Nat) (occ : Nat → Prop) (hr : Nat → Nat) (v c : Nat → Bool) : Prop where
  last : ¬ occ (cap - 1)
  le : ∀ x < cap, occ x → hr x ≤ x
  full : ∀ x < cap, occ x → ∀ y, hr x ≤ y → y ≤ x → occ y
  mono : ∀ x y, x < y → y < cap → occ x → occ y → hr x ≤ hr y
  v_iff : ∀ x < cap, v x = true ↔ ∃ y < cap, occ y ∧ hr y = x
  c_iff : ∀ x < cap, c x = true ↔ occ x ∧ ∀ y < x, occ y → hr y ≠ hr x

/-- Number of set bits in `[a, b)` -/
def cnt (f : Nat → Bool) (a b : Nat) : Nat := ((Finset.Ico a b).filter fun x => f x = true).card

theorem cnt_self (f : Nat → Bool) (a : Nat) : cnt f a a = 0 := by simp [cnt]

theorem cnt_left (f : Nat → Bool) {a b : Nat} (h : a < b) : cnt f a b = (f a).toNat + cnt f (a + 1) b := by
  have e : Finset.Ico a b = insert a (Finset.Ico (a + 1) b) := by ext x; simp only [Finset.mem_Ico, Finset.mem_insert]; omega
  rw [cnt, e, Finset.filter_insert]
  cases hf : f a
  · simp [cnt]
  · simp only [if_true]
    rw [Finset.card_insert_of_notMem (by simp)]
    simp [cnt]; omega

theorem cnt_right (f : Nat → Bool) {a b : Nat} (h : a ≤ b) : cnt f a (b + 1) = cnt f a b + (f b).toNat := by
  have e : Finset.Ico a (b + 1) = insert b (Finset.Ico a b) := by ext x; simp only [Finset.mem_Ico, Finset.mem_insert]; omega
  rw [cnt, e, Finset.filter_insert]
  cases hf : f b
  · simp [cnt]
  · simp only [if_true]
    rw [Finset.card_insert_of_notMem (by simp)]
    simp [cnt]

theorem cnt_zero {f : Nat → Bool} {a b : Nat} (h : ∀ x, a ≤ x → x < b → f x = false) : cnt f a b = 0 := by
  rw [cnt, Finset.card_eq_zero, Finset.filter_eq_empty_iff]
  intro x hx
  rw [Finset.mem_Ico] at hx
  simp [h x hx.1 hx.2]

theorem cnt_congr {f g : Nat → Bool} {a b : Nat} (h : ∀ x, a ≤ x → x < b → f x = g x) : cnt f a b = cnt g a b := by
  rw [cnt, cnt]
  congr 1
  apply Finset.filter_congr
  intro x hx
  rw [Finset.mem_Ico] at hx
  rw [h x hx.1 hx.2]

variable {cap : Nat} {occ : Nat → Prop} {hr : Nat → Nat} {v c : Nat → Bool}

/-- Where the entries with home address above `a` begin. -/
theorem LinInv.split (I : LinInv cap occ hr v c) {a t : Nat} (hat : a ≤ t) (htc : t < cap)
    (hocc : ∀ x, a ≤ x → x < t → occ x) (ht : ¬ occ t) :
    ∃ n, a ≤ n ∧ n ≤ t ∧ (∀ x < n, occ x → hr x ≤ a) ∧ (∀ x, n ≤ x → x < cap → occ x → a < hr x) ∧
      (n < t → c n = true) ∧ cnt c n t = cnt v (a + 1) t := by
  classical
  have hex : ∃ x, a ≤ x ∧ (x = t ∨ a < hr x) := ⟨t, hat, Or.inl rfl⟩
  set n := Nat.find hex with hn
  obtain ⟨h1, h2⟩ := Nat.find_spec hex
  have hmin : ∀ x, a ≤ x → x < n → x ≠ t ∧ hr x ≤ a := by
    intro x hx hxn
    have := Nat.find_min hex hxn
    push Not at this
    have := this hx
    exact this
  have hnt : n ≤ t := Nat.find_min' hex ⟨hat, Or.inl rfl⟩
  have hlow : ∀ x < n, occ x → hr x ≤ a := by
    intro x hx ho
    by_cases hxa : x < a
    · have := I.le x (by omega) ho; omega
    · exact (hmin x (by omega) hx).2
  have hhigh : ∀ x, n ≤ x → x < cap → occ x → a < hr x := by
    intro x hx hxc ho
    by_cases hxt : x < t
    · have hn2 : a < hr n := by
        rcases h2 with h2 | h2
        · have : n = t := h2
          omega
        · exact h2
      by_cases hxn : x = n
      · rw [hxn]; exact hn2
      · have := I.mono n x (by omega) hxc (hocc n h1 (by omega)) ho
        omega
    · by_contra hc
      exact ht (I.full x hxc ho t (by omega) (by omega))
  have hcn : n < t → c n = true := by
    intro hlt
    rw [I.c_iff n (by omega)]
    refine ⟨hocc n h1 hlt, fun y hy ho he => ?_⟩
    have a1 := hlow y hy ho
    have a2 := hhigh n (Nat.le_refl _) (by omega) (hocc n h1 hlt)
    omega
  refine ⟨n, h1, hnt, hlow, hhigh, hcn, ?_⟩
  rw [cnt, cnt]
  refine Finset.card_bij (fun x _ => hr x) ?_ ?_ ?_
  · intro x hx
    rw [Finset.mem_filter, Finset.mem_Ico] at hx ⊢
    obtain ⟨⟨x1, x2⟩, x3⟩ := hx
    have ho := ((I.c_iff x (by omega)).mp x3).1
    have e1 := hhigh x x1 (by omega) ho
    have e2 := I.le x (by omega) ho
    refine ⟨⟨by omega, by omega⟩, ?_⟩
    rw [I.v_iff _ (by omega)]
    exact ⟨x, by omega, ho, rfl⟩
  · intro x hx y hy hxy
    rw [Finset.mem_filter, Finset.mem_Ico] at hx hy
    obtain ⟨⟨x1, x2⟩, x3⟩ := hx
    obtain ⟨⟨y1, y2⟩, y3⟩ := hy
    have hx := (I.c_iff x (by omega)).mp x3
    have hy := (I.c_iff y (by omega)).mp y3
    rcases Nat.lt_trichotomy x y with h | h | h
    · exact absurd hxy (hy.2 x h hx.1)
    · exact h
    · exact absurd hxy.symm (hx.2 y h hy.1)
  · intro h hh
    rw [Finset.mem_filter, Finset.mem_Ico] at hh
    obtain ⟨⟨k1, k2⟩, k3⟩ := hh
    have hex2 : ∃ y, y < cap ∧ occ y ∧ hr y = h := by
      obtain ⟨y, y1, y2, y3⟩ := (I.v_iff h (by omega)).mp k3
      exact ⟨y, y1, y2, y3⟩
    obtain ⟨y1, y2, y3⟩ := Nat.find_spec hex2
    set y := Nat.find hex2 with hy
    have hyh := I.le y y1 y2
    have hyt : y < t := by
      by_contra hc
      exact ht (I.full y y1 y2 t (by omega) (by omega))
    have hyn : n ≤ y := by
      by_contra hc
      have := hlow y (by omega) y2
      omega
    refine ⟨y, ?_, y3⟩
    rw [Finset.mem_filter, Finset.mem_Ico]
    refine ⟨⟨hyn, hyt⟩, (I.c_iff y y1).mpr ⟨y2, fun z hz hoz he => ?_⟩⟩
    exact Nat.find_min hex2 hz ⟨by omega, hoz, by omega⟩

/-- The group of `a`, if there is one. -/
theorem LinInv.group (I : LinInv cap occ hr v c) {a n : Nat} (hnc : n < cap) (hocc : ∀ x, a ≤ x → x < n → occ x)
    (hlow : ∀ x < n, occ x → hr x ≤ a) (hhigh : ∀ x, n ≤ x → x < cap → occ x → a < hr x) (hac : a < cap)
    (hv : v a = true) :
    ∃ s, a ≤ s ∧ s < n ∧ c s = true ∧ cnt c s n = 1 ∧ ∀ x < cap, (occ x ∧ hr x = a) ↔ (s ≤ x ∧ x < n) := by
  classical
  have hex2 : ∃ y, y < cap ∧ occ y ∧ hr y = a := by
    obtain ⟨y, y1, y2, y3⟩ := (I.v_iff a hac).mp hv
    exact ⟨y, y1, y2, y3⟩
  obtain ⟨y1, y2, y3⟩ := Nat.find_spec hex2
  set s := Nat.find hex2 with hs
  have hmin : ∀ y < s, occ y → hr y ≠ a := fun y hy ho he =>
    Nat.find_min hex2 hy ⟨by omega, ho, he⟩
  have hsn : s < n := by
    by_contra hc
    have := hhigh s (by omega) y1 y2
    omega
  have has : a ≤ s := by have := I.le s y1 y2; omega
  have hin : ∀ x, s ≤ x → x < n → occ x ∧ hr x = a := by
    intro x hx hxn
    have ho : occ x := hocc x (by omega) hxn
    refine ⟨ho, ?_⟩
    have h1 := hlow x hxn ho
    by_cases hxs : x = s
    · rw [hxs]; exact y3
    · have := I.mono s x (by omega) (by omega) y2 ho
      omega
  have hcs : c s = true := (I.c_iff s y1).mpr ⟨y2, fun y hy ho => by rw [y3]; exact hmin y hy ho⟩
  refine ⟨s, has, hsn, hcs, ?_, fun x hx => ⟨fun ⟨ho, he⟩ => ⟨?_, ?_⟩, fun ⟨h1, h2⟩ => hin x h1 h2⟩⟩
  · rw [cnt_left _ hsn, hcs, cnt_zero]
    · rfl
    · intro x hx hxn
      by_contra hc
      have := ((I.c_iff x (by omega)).mp (by simpa using hc)).2 s (by omega) y2
      exact this (by rw [y3, (hin x (by omega) hxn).2])
  · by_contra hc
    exact hmin x (by omega) ho he
  · by_contra hc
    have := hhigh x (by omega) hx ho
    omega

/-- If there is no group for `a`, walking back finds the start of the group before it. -/
theorem LinInv.before (I : LinInv cap occ hr v c) {a n : Nat} (hnc : n < cap) (han : a ≤ n) (hoa : occ a)
    (hhigh : ∀ x, n ≤ x → x < cap → occ x → a < hr x) :
    ∃ s, s < n ∧ c s = true ∧ cnt c s n = 1 := by
  classical
  have ha : a < n := by
    by_contra hc
    have h1 := hhigh a (by omega) (by omega) hoa
    have h2 := I.le a (by omega) hoa
    omega
  -- the start of the group of the entry at `a`
  have hex : ∃ y, occ y ∧ hr y = hr a := ⟨a, hoa, rfl⟩
  obtain ⟨y2, y3⟩ := Nat.find_spec hex
  have hya : Nat.find hex ≤ a := Nat.find_min' hex ⟨hoa, rfl⟩
  set y := Nat.find hex with hy
  have hcy : c y = true := (I.c_iff y (by omega)).mpr ⟨y2, fun z hz ho he =>
    Nat.find_min hex hz ⟨ho, he.trans y3⟩⟩
  have hP : ∃ x, x ≤ n - 1 ∧ c x = true := ⟨y, by omega, hcy⟩
  have hs := Nat.findGreatest_spec (P := fun x => c x = true) (n := n - 1) (m := y) (by omega) hcy
  have hle := Nat.findGreatest_le (P := fun x => c x = true) (n - 1)
  set s := Nat.findGreatest (fun x => c x = true) (n - 1) with hsdef
  refine ⟨s, by omega, hs, ?_⟩
  rw [cnt_left _ (by omega), hs, cnt_zero]
  · rfl
  · intro x hx hxn
    have := Nat.findGreatest_is_greatest (P := fun x => c x = true) (n := n - 1) (k := x) (by omega) (by omega)
    simpa using this

/-- Insert into a linear array. -/
def linIns {α : Type} (f : Nat → α) (n t : Nat) (a : α) (x : Nat) : α :=
  if x = n then a else if n < x ∧ x ≤ t then f (x - 1) else f x

theorem LinInv.insert (I : LinInv cap occ hr v c) {a n t : Nat} (han : a ≤ n) (hnt : n ≤ t) (htc : t < cap - 1)
    (hocc : ∀ x, a ≤ x → x < t → occ x) (ht : ¬ occ t)
    (hlow : ∀ x < n, occ x → hr x ≤ a) (hhigh : ∀ x, n ≤ x → x < cap → occ x → a < hr x)
    {occ' : Nat → Prop} {hr' : Nat → Nat} {v' c' : Nat → Bool}
    (ho' : ∀ x < cap, occ' x ↔ occ x ∨ x = t) (hh' : ∀ x < cap, occ' x → hr' x = linIns hr n t a x)
    (hv' : ∀ x < cap, v' x = if x = a then true else v x)
    (hc' : ∀ x < cap, c' x = linIns c n t (!v a) x) : LinInv cap occ' hr' v' c' := by
  -- entries before and from `n` on in the new table
  have lt_ : ∀ x < n, occ' x → occ x ∧ hr' x = hr x := by
    intro x hx ho
    have e := hh' x (by omega) ho
    rw [linIns, if_neg (by omega), if_neg (by omega)] at e
    rcases (ho' x (by omega)).mp ho with h | h
    · exact ⟨h, e⟩
    · omega
  have on' : occ' n := by
    rw [ho' n (by omega)]
    by_cases h : n = t
    · exact Or.inr h
    · exact Or.inl (hocc n han (by omega))
  have eqn : hr' n = a := by
    have e := hh' n (by omega) on'
    rw [linIns, if_pos rfl] at e
    exact e
  have mid : ∀ x, n < x → x ≤ t → occ' x ∧ occ (x - 1) ∧ hr' x = hr (x - 1) := by
    intro x h1 h2
    have ho : occ' x := by
      rw [ho' x (by omega)]
      by_cases h : x = t
      · exact Or.inr h
      · exact Or.inl (hocc x (by omega) (by omega))
    have e := hh' x (by omega) ho
    rw [linIns, if_neg (by omega), if_pos ⟨h1, h2⟩] at e
    exact ⟨ho, hocc (x - 1) (by omega) (by omega), e⟩
  have gt_ : ∀ x, t < x → x < cap → occ' x → occ x ∧ hr' x = hr x ∧ t < hr x := by
    intro x h1 h2 ho
    have e := hh' x (by omega) ho
    rw [linIns, if_neg (by omega), if_neg (by omega)] at e
    have ho2 : occ x := by
      rcases (ho' x (by omega)).mp ho with h | h
      · exact h
      · omega
    refine ⟨ho2, e, ?_⟩
    by_contra hc
    exact ht (I.full x h2 ho2 t (by omega) (by omega))
  have sub : ∀ x < cap, occ x → occ' x := fun x hx h => (ho' x hx).mpr (Or.inl h)
  -- old position of an entry
  have old : ∀ x < cap, x ≠ n → occ' x → ∃ y, occ y ∧ hr' x = hr y ∧ y < cap ∧ (y = x ∧ x < n ∨ y + 1 = x ∧ n < x ∧ x ≤ t ∨ y = x ∧ t < x) := by
    intro x hx hn ho
    rcases Nat.lt_or_gt_of_ne hn with h | h
    · obtain ⟨h1, h2⟩ := lt_ x h ho
      exact ⟨x, h1, h2, hx, Or.inl ⟨rfl, h⟩⟩
    · by_cases h3 : x ≤ t
      · obtain ⟨_, h1, h2⟩ := mid x h h3
        exact ⟨x - 1, h1, h2, by omega, Or.inr (Or.inl ⟨by omega, h, h3⟩)⟩
      · obtain ⟨h1, h2, _⟩ := gt_ x (by omega) hx ho
        exact ⟨x, h1, h2, hx, Or.inr (Or.inr ⟨rfl, by omega⟩)⟩
  have new : ∀ y < cap, occ y → ∃ x, occ' x ∧ hr' x = hr y ∧ x < cap ∧ x ≠ n ∧ (y = x ∧ x < n ∨ y + 1 = x ∧ n < x ∧ x ≤ t ∨ y = x ∧ t < x) := by
    intro y hy ho
    have hyt : y ≠ t := by rintro rfl; exact ht ho
    by_cases h1 : y < n
    · exact ⟨y, sub y hy ho, (lt_ y h1 (sub y hy ho)).2, hy, by omega, Or.inl ⟨rfl, h1⟩⟩
    · by_cases h2 : y < t
      · obtain ⟨a1, a2, a3⟩ := mid (y + 1) (by omega) (by omega)
        exact ⟨y + 1, a1, a3, by omega, by omega, Or.inr (Or.inl ⟨rfl, by omega, by omega⟩)⟩
      · exact ⟨y, sub y hy ho, (gt_ y (by omega) hy (sub y hy ho)).2.1, hy, by omega, Or.inr (Or.inr ⟨rfl, by omega⟩)⟩
  have hin' : ∀ y, a ≤ y → y ≤ t → occ' y := by
    intro y h1 h2
    rw [ho' y (by omega)]
    by_cases h : y = t
    · exact Or.inr h
    · exact Or.inl (hocc y h1 (by omega))
  refine ⟨?_, ?_, ?_, ?_, ?_, ?_⟩
  · rw [ho' _ (by omega)]
    rintro (h | h)
    · exact I.last h
    · omega
  · intro x hx ho
    by_cases hn : x = n
    · subst hn; rw [eqn]; exact han
    · obtain ⟨y, y1, y2, y3, y4⟩ := old x hx hn ho
      have := I.le y y3 y1
      omega
  · intro x hx ho y hy1 hy2
    by_cases hn : x = n
    · subst hn; rw [eqn] at hy1; exact hin' y hy1 (by omega)
    · obtain ⟨z, z1, z2, z3, z4⟩ := old x hx hn ho
      by_cases hyz : y ≤ z
      · exact sub y (by omega) (I.full z z3 z1 y (by omega) hyz)
      · exact hin' y (by omega) (by omega)
  · intro x y hxy hy hox hoy
    by_cases hx : x = n
    · subst hx
      obtain ⟨z, z1, z2, z3, z4⟩ := old y hy (by omega) hoy
      have := hhigh z (by omega) z3 z1
      omega
    · obtain ⟨w, w1, w2, w3, w4⟩ := old x (by omega) hx hox
      by_cases hyn : y = n
      · subst hyn
        have := hlow w (by omega) w1
        omega
      · obtain ⟨z, z1, z2, z3, z4⟩ := old y hy hyn hoy
        have := I.mono w z (by omega) z3 w1 z1
        omega
  · intro x hx
    rw [hv' x hx]
    constructor
    · intro h
      by_cases hxa : x = a
      · subst hxa; exact ⟨n, by omega, on', eqn⟩
      · rw [if_neg hxa] at h
        obtain ⟨y, y1, y2, y3⟩ := (I.v_iff x hx).mp h
        obtain ⟨z, z1, z2, z3, _, _⟩ := new y y1 y2
        exact ⟨z, z3, z1, by omega⟩
    · rintro ⟨y, y1, y2, y3⟩
      by_cases hxa : x = a
      · rw [if_pos hxa]
      · rw [if_neg hxa]
        have hyn : y ≠ n := by rintro rfl; omega
        obtain ⟨z, z1, z2, z3, _⟩ := old y y1 hyn y2
        exact (I.v_iff x hx).mpr ⟨z, z3, z1, by omega⟩
  · intro x hx
    rw [hc' x hx]
    by_cases hxn : x = n
    · subst hxn
      rw [linIns, if_pos rfl, eqn]
      simp only [Bool.not_eq_true']
      constructor
      · intro hv
        refine ⟨on', fun y hy ho he => ?_⟩
        obtain ⟨h1, h2⟩ := lt_ y hy ho
        have : v a = true := (I.v_iff a (by omega)).mpr ⟨y, by omega, h1, by omega⟩
        rw [hv] at this; simp at this
      · rintro ⟨_, h⟩
        by_contra hc
        obtain ⟨y, y1, y2, y3⟩ := (I.v_iff a (by omega)).mp (by simpa using hc)
        have hyx : y < x := by
          by_contra hc
          have := hhigh y (by omega) y1 y2
          omega
        have := lt_ y hyx (sub y y1 y2)
        exact h y hyx (sub y y1 y2) (by omega)
    · -- an entry that was there before
      have key : ∀ y, (occ' x → occ y) → (occ y → occ' x) → (occ' x → hr' x = hr y) → y < cap →
          (y = x ∧ x < n ∨ y + 1 = x ∧ n < x ∧ x ≤ t ∨ y = x ∧ t < x) →
          (c y = true ↔ occ' x ∧ ∀ z < x, occ' z → hr' z ≠ hr' x) := by
        intro y h1 h2 h3 h4 h5
        rw [I.c_iff y h4]
        constructor
        · rintro ⟨ho, hf⟩
          refine ⟨h2 ho, fun z hz hoz he => ?_⟩
          rw [h3 (h2 ho)] at he
          by_cases hzn : z = n
          · subst hzn
            have := hhigh y (by omega) h4 ho
            omega
          · obtain ⟨w, w1, w2, w3, w4⟩ := old z (by omega) hzn hoz
            exact hf w (by omega) w1 (by omega)
        · rintro ⟨ho, hf⟩
          refine ⟨h1 ho, fun z hz hoz he => ?_⟩
          obtain ⟨w, w1, w2, w3, w4, w5⟩ := new z (by omega) hoz
          refine hf w (by omega) w1 ?_
          rw [h3 ho]; omega
      rcases Nat.lt_or_gt_of_ne hxn with h | h
      · rw [linIns, if_neg hxn, if_neg (by omega)]
        exact key x (fun ho => (lt_ x h ho).1) (sub x hx) (fun ho => (lt_ x h ho).2) hx (Or.inl ⟨rfl, h⟩)
      · by_cases h3 : x ≤ t
        · obtain ⟨m1, m2, m3⟩ := mid x h h3
          rw [linIns, if_neg hxn, if_pos ⟨h, h3⟩]
          exact key (x - 1) (fun _ => m2) (fun _ => m1) (fun _ => m3) (by omega) (Or.inr (Or.inl ⟨by omega, h, h3⟩))
        · rw [linIns, if_neg hxn, if_neg (by omega)]
          exact key x (fun ho => (gt_ x (by omega) hx ho).1) (sub x hx) (fun ho => (gt_ x (by omega) hx ho).2.1) hx
            (Or.inr (Or.inr ⟨rfl, by omega⟩))

/-- Insertion at an empty home address. -/
theorem LinInv.insertEmpty (I : LinInv cap occ hr v c) {a : Nat} (hac : a < cap - 1) (ha : ¬ occ a)
    {occ' : Nat → Prop} {hr' : Nat → Nat} {v' c' : Nat → Bool}
    (ho' : ∀ x < cap, occ' x ↔ occ x ∨ x = a) (hh' : ∀ x < cap, occ' x → hr' x = if x = a then a else hr x)
    (hv' : ∀ x < cap, v' x = if x = a then true else v x)
    (hc' : ∀ x < cap, c' x = if x = a then true else c x) : LinInv cap occ' hr' v' c' := by
  have hva : v a = false := by
    by_contra hc
    obtain ⟨y, y1, y2, y3⟩ := (I.v_iff a (by omega)).mp (by simpa using hc)
    have := I.le y y1 y2
    exact ha (I.full y y1 y2 a (by omega) (by omega))
  refine I.insert (a := a) (n := a) (t := a) (Nat.le_refl _) (Nat.le_refl _) hac (fun x h1 h2 => by omega) ha ?_ ?_ ho' ?_ hv' ?_
  · intro x hx ho
    have := I.le x (by omega) ho
    omega
  · intro x hx hxc ho
    by_contra hc
    exact ha (I.full x hxc ho a (by omega) hx)
  · intro x hx ho
    rw [hh' x hx ho, linIns]
    by_cases h : x = a
    · simp [h]
    · rw [if_neg h, if_neg h, if_neg (by omega)]
  · intro x hx
    rw [hc' x hx, linIns, hva]
    by_cases h : x = a
    · simp [h]
    · rw [if_neg h, if_neg h, if_neg (by omega)]

end Tdc.CSH
