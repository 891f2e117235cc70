import Verif.Lemmas.CompactHashSparse
import Verif.Lemmas.CompactHashLin

/-!
# Compact hash table: the loops over positions
-/

namespace Tdc.CSH

/-! ## Circular positions seen from an empty position `e` -/

/-- position number `x` behind position `e` -/
def lin (cap e x : Nat) : Nat := (e + 1 + x) % cap

/-- the number of position `p` -/
def rel (cap e p : Nat) : Nat := (p + cap - (e + 1)) % cap

theorem mod_cases {y cap : Nat} (h : y < 2 * cap) : (y < cap ∧ y % cap = y) ∨ (cap ≤ y ∧ y % cap = y - cap) := by
  by_cases h1 : y < cap
  · exact Or.inl ⟨h1, Nat.mod_eq_of_lt h1⟩
  · refine Or.inr ⟨by omega, ?_⟩
    rw [Nat.mod_eq_sub_mod (by omega), Nat.mod_eq_of_lt (by omega)]

variable {cap e : Nat}

theorem lin_lt (x : Nat) (hc : 0 < cap) : lin cap e x < cap := Nat.mod_lt _ hc
theorem rel_lt (p : Nat) (hc : 0 < cap) : rel cap e p < cap := Nat.mod_lt _ hc

theorem lin_cases (he : e < cap) {x : Nat} (hx : x < cap) :
    (e + 1 + x < cap ∧ lin cap e x = e + 1 + x) ∨ (cap ≤ e + 1 + x ∧ lin cap e x = e + 1 + x - cap) :=
  mod_cases (by omega)

theorem rel_lin (he : e < cap) {x : Nat} (hx : x < cap) : rel cap e (lin cap e x) = x := by
  rcases lin_cases he hx with ⟨h1, h2⟩ | ⟨h1, h2⟩ <;> rw [h2, rel]
  · rw [show e + 1 + x + cap - (e + 1) = x + cap by omega, Nat.add_mod_right, Nat.mod_eq_of_lt hx]
  · rw [show e + 1 + x - cap + cap - (e + 1) = x by omega, Nat.mod_eq_of_lt hx]

theorem lin_rel (he : e < cap) {p : Nat} (hp : p < cap) : lin cap e (rel cap e p) = p := by
  rw [rel]
  rcases mod_cases (y := p + cap - (e + 1)) (cap := cap) (by omega) with ⟨h1, h2⟩ | ⟨h1, h2⟩ <;> rw [h2, lin]
  · rw [show e + 1 + (p + cap - (e + 1)) = p + cap by omega, Nat.add_mod_right, Nat.mod_eq_of_lt hp]
  · rw [show e + 1 + (p + cap - (e + 1) - cap) = p by omega, Nat.mod_eq_of_lt hp]

theorem lin_inj (he : e < cap) {x y : Nat} (hx : x < cap) (hy : y < cap) (h : lin cap e x = lin cap e y) : x = y := by
  rw [← rel_lin he hx, ← rel_lin he hy, h]

theorem lin_last (he : e < cap) : lin cap e (cap - 1) = e := by
  rw [lin, show e + 1 + (cap - 1) = e + cap by omega, Nat.add_mod_right, Nat.mod_eq_of_lt he]

theorem lin_next (x : Nat) : (lin cap e x + 1) % cap = lin cap e (x + 1) := by
  rw [lin, lin, Nat.mod_add_mod]; rfl

theorem lin_prev (he : e < cap) {x : Nat} (hx : x + 1 < cap) : (lin cap e (x + 1) + cap - 1) % cap = lin cap e x := by
  have h0 := lin_lt (cap := cap) (e := e) x (by omega)
  rcases lin_cases he (x := x) (by omega) with ⟨h1, h2⟩ | ⟨h1, h2⟩ <;>
  rcases lin_cases he hx with ⟨k1, k2⟩ | ⟨k1, k2⟩
  · rw [h2, k2, show e + 1 + (x + 1) + cap - 1 = e + 1 + x + cap by omega, Nat.add_mod_right, Nat.mod_eq_of_lt (by omega)]
  · rw [h2, k2, show e + 1 + (x + 1) - cap + cap - 1 = e + 1 + x by omega, Nat.mod_eq_of_lt (by omega)]
  · omega
  · rw [h2, k2, show e + 1 + (x + 1) - cap + cap - 1 = (e + 1 + x - cap) + cap by omega, Nat.add_mod_right,
      Nat.mod_eq_of_lt (by omega)]

theorem lin_sub (he : e < cap) {x n : Nat} (hx : x < cap) (hn : n < cap) :
    (lin cap e x + cap - lin cap e n) % cap = (x + cap - n) % cap := by
  rcases lin_cases he hx with ⟨h1, h2⟩ | ⟨h1, h2⟩ <;>
  rcases lin_cases he hn with ⟨k1, k2⟩ | ⟨k1, k2⟩ <;> rw [h2, k2]
  · congr 1; omega
  · rw [show e + 1 + x + cap - (e + 1 + n - cap) = x + cap - n + cap by omega, Nat.add_mod_right]
  · rw [show x + cap - n = (e + 1 + x - cap + cap - (e + 1 + n)) + cap by omega, Nat.add_mod_right]
  · congr 1; omega

theorem circIns_lin {α : Type} (he : e < cap) (f : Nat → α) {n t x : Nat} (a : α) (hnt : n ≤ t) (ht : t < cap)
    (hx : x < cap) :
    circIns cap f (lin cap e n) (lin cap e t) a (lin cap e x) = linIns (fun y => f (lin cap e y)) n t a x := by
  have e2 : (t + cap - n) % cap = t - n := by
    rw [show t + cap - n = t - n + cap by omega, Nat.add_mod_right, Nat.mod_eq_of_lt (by omega)]
  rw [circIns, lin_sub he hx (by omega), lin_sub he ht (by omega), e2, linIns]
  by_cases h1 : n ≤ x
  · have e1 : (x + cap - n) % cap = x - n := by
      rw [show x + cap - n = x - n + cap by omega, Nat.add_mod_right, Nat.mod_eq_of_lt (by omega)]
    rw [e1]
    by_cases h2 : x = n
    · simp [h2]
    · rw [if_neg (by omega), if_neg h2]
      by_cases h3 : x ≤ t
      · rw [if_pos (by omega), if_pos (by omega)]
        congr 1
        obtain ⟨y, rfl⟩ : ∃ y, x = y + 1 := ⟨x - 1, by omega⟩
        exact lin_prev he hx
      · rw [if_neg (by omega), if_neg (by omega)]
  · have e1 : (x + cap - n) % cap = x + cap - n := Nat.mod_eq_of_lt (by omega)
    rw [e1, if_neg (by omega), if_neg (by omega), if_neg (by omega), if_neg (by omega)]

/-! ## Loops -/

variable {t : Tab}

/-- the `v` bit of a position -/
def Tab.V (t : Tab) (p : Nat) : Bool := t.v.getD p false
/-- the `c` bit of a position -/
def Tab.C (t : Tab) (p : Nat) : Bool := t.c.getD p false

/-- A table whose parts have the right sizes. -/
structure Sized (t : Tab) : Prop where
  wf : WF t
  vlen : t.v.length = t.cap
  clen : t.c.length = t.cap
  small : t.log ≤ 17

theorem Sized.capS (h : Sized t) : t.cap ≤ 131072 := by
  rw [Tab.cap]
  exact (Nat.pow_le_pow_right (by decide) h.small).trans (by decide)

theorem Sized.bkt (h : Sized t) {p : Nat} (hp : p < t.cap) : p / 64 < 4032 := by
  have := h.capS
  omega

theorem vget_V (h : Sized t) {p : Nat} (hp : p < t.cap) : vget t.v p = .ok (t.V p) := by
  have : p < t.v.length := by rw [h.vlen]; exact hp
  rw [vget_ok (List.getElem?_eq_getElem this), Tab.V]
  simp [List.getD_eq_getElem?_getD, List.getElem?_eq_getElem this]

theorem vget_C (h : Sized t) {p : Nat} (hp : p < t.cap) : vget t.c p = .ok (t.C p) := by
  have : p < t.c.length := by rw [h.clen]; exact hp
  rw [vget_ok (List.getElem?_eq_getElem this), Tab.C]
  simp [List.getD_eq_getElem?_getD, List.getElem?_eq_getElem this]

theorem walkFwd_spec (h : Sized t) (he : e < t.cap) {z : Nat} (hz : z < t.cap)
    (hzn : slot t (lin t.cap e z) = none) : ∀ (k fuel x m : Nat), x + k = z → k < fuel →
    (∀ y, x ≤ y → y < z → (slot t (lin t.cap e y)).isSome) →
    walkFwd t fuel (lin t.cap e x) m = .ok (lin t.cap e z, m + cnt (fun y => t.V (lin t.cap e y)) x z)
  | 0, fuel + 1, x, m, hx, _, _ => by
    obtain rfl : x = z := by omega
    rw [walkFwd, sexists_ok h.wf (h.bkt (lin_lt _ (cap_pos t))), hzn, bind_ok, cnt_self]
    rfl
  | k + 1, fuel + 1, x, m, hx, hf, ho => by
    rw [walkFwd, sexists_ok h.wf (h.bkt (lin_lt _ (cap_pos t))), ho x (Nat.le_refl _) (by omega), bind_ok]
    simp only [if_true]
    rw [vget_V h (lin_lt _ (cap_pos t)), bind_ok, Tab.next, lin_next,
      walkFwd_spec h he hz hzn k fuel (x + 1) _ (by omega) (by omega) (fun y a b => ho y (by omega) b),
      cnt_left _ (by omega : x < z)]
    simp only [Nat.add_assoc]

theorem walkBack_spec (h : Sized t) (he : e < t.cap) (stop y : Nat) :
    ∀ (k fuel x m : Nat), x = y + k → k < fuel → x < t.cap → (y < x → t.C (lin t.cap e y) = true) →
    m = stop + cnt (fun i => t.C (lin t.cap e i)) y x →
    walkBack t stop fuel (lin t.cap e x) m = .ok (lin t.cap e y)
  | 0, fuel + 1, x, m, hx, _, _, _, hm => by
    obtain rfl : x = y := by omega
    rw [cnt_self] at hm
    rw [walkBack, if_pos (by omega)]
  | k + 1, fuel + 1, x, m, hx, hf, hxc, hcy, hm => by
    obtain ⟨x, rfl⟩ : ∃ x', x = x' + 1 := ⟨x - 1, by omega⟩
    have hne : m ≠ stop := by
      rw [cnt_left _ (by omega)] at hm
      simp only [hcy (by omega), Bool.toNat_true] at hm
      omega
    rw [cnt_right _ (by omega)] at hm
    rw [walkBack, if_neg hne]
    simp only [Tab.prev, lin_prev he hxc]
    rw [vget_C h (lin_lt _ (cap_pos t)), bind_ok]
    refine walkBack_spec h he stop y k fuel x _ (by omega) (by omega) (by omega) (fun _ => hcy (by omega)) ?_
    omega

theorem searchGroup_spec (h : Sized t) (he : e < t.cap) {a s n z : Nat} (hz : z < t.cap)
    (hzn : slot t (lin t.cap e z) = none) (haz : a ≤ z)
    (ho : ∀ y, a ≤ y → y < z → (slot t (lin t.cap e y)).isSome)
    (hcnt : cnt (fun y => t.V (lin t.cap e y)) a z = 1 + cnt (fun y => t.C (lin t.cap e y)) n z)
    (hnz : n ≤ z) (hcn : n < z → t.C (lin t.cap e n) = true) (hsn : s < n) (hcs : t.C (lin t.cap e s) = true)
    (hsc : cnt (fun y => t.C (lin t.cap e y)) s n = 1) :
    searchGroup t (lin t.cap e a) = .ok (lin t.cap e s, lin t.cap e n, lin t.cap e z) := by
  rw [searchGroup, walkFwd_spec h he hz hzn (z - a) _ a 0 (by omega) (by omega) ho, bind_ok]
  simp only
  rw [walkBack_spec h he 1 n (z - n) _ z _ (by omega) (by omega) hz hcn (by omega), bind_ok]
  rw [walkBack_spec h he 0 s (n - s) _ n _ (by omega) (by omega) (by omega) (fun _ => hcs) (by omega), bind_ok]

/-- Searching a quotient in the positions `[x, n)`. -/
theorem searchIn_spec (h : Sized t) (he : e < t.cap) (quot n : Nat) (hn : n < t.cap) :
    ∀ (k fuel x : Nat), x + k = n → k < fuel → (∀ y, x ≤ y → y < n → (slot t (lin t.cap e y)).isSome) →
    (∃ y val, x ≤ y ∧ y < n ∧ slot t (lin t.cap e y) = some (quot, val) ∧
      searchIn t (lin t.cap e n) quot fuel (lin t.cap e x) = .ok (some (loc t (lin t.cap e y)))) ∨
    ((∀ y val, x ≤ y → y < n → slot t (lin t.cap e y) ≠ some (quot, val)) ∧
      searchIn t (lin t.cap e n) quot fuel (lin t.cap e x) = .ok none)
  | 0, fuel + 1, x, hx, _, _ => by
    obtain rfl : x = n := by omega
    exact Or.inr ⟨fun y val a b => by omega, by rw [searchIn, if_pos rfl]⟩
  | k + 1, fuel + 1, x, hx, hf, ho => by
    have hne : lin t.cap e x ≠ lin t.cap e n := fun hc => by
      have := lin_inj he (by omega) hn hc
      omega
    have hlt := lin_lt (cap := t.cap) (e := e) x (cap_pos t)
    obtain ⟨⟨q, val⟩, hs⟩ := Option.isSome_iff_exists.mp (ho x (Nat.le_refl _) (by omega))
    have hstep : searchIn t (lin t.cap e n) quot (fuel + 1) (lin t.cap e x) =
        if q = quot then .ok (some (loc t (lin t.cap e x))) else searchIn t (lin t.cap e n) quot fuel (lin t.cap e (x + 1)) := by
      rw [searchIn, if_neg hne, spos_ok h.wf (h.bkt hlt), bind_ok]
      have e1 : ∀ p, (p / 64, (loc t p).2) = loc t p := fun p => rfl
      simp only [e1]
      rw [hget_loc h.wf hs, bind_ok, Tab.next, lin_next]
    rw [hstep]
    by_cases hq : q = quot
    · refine Or.inl ⟨x, val, Nat.le_refl _, by omega, by rw [hs, hq], by rw [if_pos hq]⟩
    · rw [if_neg hq]
      rcases searchIn_spec h he quot n hn k fuel (x + 1) (by omega) (by omega) (fun y a b => ho y (by omega) b) with
        ⟨y, val', y1, y2, y3, y4⟩ | ⟨y1, y2⟩
      · exact Or.inl ⟨y, val', by omega, y2, y3, y4⟩
      · refine Or.inr ⟨fun y val' a b => ?_, y2⟩
        by_cases hy : y = x
        · subst hy; rw [hs]; simp [hq]
        · exact y1 y val' (by omega) b

theorem setC_ok (h : Sized t) {p : Nat} (b : Bool) (hp : p < t.cap) : setC t p b = .ok { t with c := t.c.set p b } := by
  rw [setC, vset_ok _ (by rw [h.clen]; exact hp), bind_ok]

theorem setV_ok (h : Sized t) {p : Nat} (b : Bool) (hp : p < t.cap) : setV t p b = .ok { t with v := t.v.set p b } := by
  rw [setV, vset_ok _ (by rw [h.vlen]; exact hp), bind_ok]

theorem C_set (h : Sized t) {p : Nat} (b : Bool) (hp : p < t.cap) (r : Nat) :
    ({ t with c := t.c.set p b } : Tab).C r = if r = p then b else t.C r := by
  simp only [Tab.C, List.getD_eq_getElem?_getD, List.getElem?_set]
  by_cases hr : p = r
  · subst hr; simp [h.clen, hp]
  · simp [hr, Ne.symm hr]

theorem V_set (h : Sized t) {p : Nat} (b : Bool) (hp : p < t.cap) (r : Nat) :
    ({ t with v := t.v.set p b } : Tab).V r = if r = p then b else t.V r := by
  simp only [Tab.V, List.getD_eq_getElem?_getD, List.getElem?_set]
  by_cases hr : p = r
  · subst hr; simp [h.vlen, hp]
  · simp [hr, Ne.symm hr]

theorem Sized.setC (h : Sized t) (p : Nat) (b : Bool) : Sized { t with c := t.c.set p b } :=
  ⟨⟨h.wf.nb, h.wf.elems⟩, h.vlen, (List.length_set ..).trans h.clen, h.small⟩

theorem Sized.setV (h : Sized t) (p : Nat) (b : Bool) : Sized { t with v := t.v.set p b } :=
  ⟨⟨h.wf.nb, h.wf.elems⟩, (List.length_set ..).trans h.vlen, h.clen, h.small⟩

/-- A table that differs only in its `c` bits. -/
structure SameC (t t' : Tab) : Prop where
  log : t'.log = t.log
  size : t'.size = t.size
  width : t'.width = t.width
  v : t'.v = t.v
  buckets : t'.buckets = t.buckets

theorem shiftC_spec (he : e < t.cap) (n : Nat) :
    ∀ (k fuel x : Nat) (t' : Tab), Sized t' → SameC t t' → x = n + k → k < fuel → x < t.cap →
    ∃ t2, shiftC (lin t.cap e n) fuel t' (lin t.cap e x) = .ok t2 ∧ Sized t2 ∧ SameC t t2 ∧
      ∀ y < t.cap, t2.C (lin t.cap e y) = if n < y ∧ y ≤ x then t'.C (lin t.cap e (y - 1)) else t'.C (lin t.cap e y)
  | 0, fuel + 1, x, t', h, hs, hx, _, _ => by
    obtain rfl : x = n := by omega
    refine ⟨t', by rw [shiftC, if_pos rfl], h, hs, fun y _ => by rw [if_neg (by omega)]⟩
  | k + 1, fuel + 1, x, t', h, hs, hx, hf, hxc => by
    obtain ⟨x, rfl⟩ : ∃ x', x = x' + 1 := ⟨x - 1, by omega⟩
    have hcap : t'.cap = t.cap := by simp only [Tab.cap, hs.log]
    have hne : lin t.cap e (x + 1) ≠ lin t.cap e n := fun hc => by
      have := lin_inj he hxc (by omega) hc
      omega
    have hl : ∀ y, lin t.cap e y < t'.cap := fun y => by rw [hcap]; exact lin_lt _ (cap_pos t)
    obtain ⟨t2, h1, h2, h3, h4⟩ := shiftC_spec he n k fuel x
      { t' with c := t'.c.set (lin t.cap e (x + 1)) (t'.C (lin t.cap e x)) } (h.setC _ _)
      ⟨hs.log, hs.size, hs.width, hs.v, hs.buckets⟩ (by omega) (by omega) (by omega)
    refine ⟨t2, ?_, h2, h3, fun y hy => ?_⟩
    · rw [shiftC, if_neg hne]
      simp only [Tab.prev, hcap, lin_prev he hxc]
      rw [vget_C h (hl _), bind_ok, setC_ok h _ (hl _), bind_ok]
      have hp : Tab.cap { t' with c := t'.c.set (lin t.cap e (x + 1)) (t'.C (lin t.cap e x)) } = t.cap := hcap
      rw [hp, lin_prev he hxc]
      exact h1
    · rw [h4 y hy, C_set h _ (hl _), C_set h _ (hl _)]
      have key : ∀ i j, i < t.cap → j < t.cap → (lin t.cap e i = lin t.cap e j ↔ i = j) :=
        fun i j hi hj => ⟨fun hc => lin_inj he hi hj hc, fun hc => by rw [hc]⟩
      by_cases h5 : n < y ∧ y ≤ x
      · have hne2 : lin t.cap e (y - 1) ≠ lin t.cap e (x + 1) := by rw [Ne, key _ _ (by omega) (by omega)]; omega
        rw [if_pos h5, if_neg hne2, if_pos (by omega)]
      · rw [if_neg h5]
        by_cases h6 : y = x + 1
        · subst h6
          rw [if_pos rfl, if_pos ⟨by omega, Nat.le_refl _⟩]; rfl
        · have hne2 : lin t.cap e y ≠ lin t.cap e (x + 1) := by rw [Ne, key _ _ hy (by omega)]; exact h6
          rw [if_neg hne2, if_neg (by omega)]

/-- Inserting an entry at `n`, in front of the entries `[n, z)`. -/
theorem insertAfter_spec (h : Sized t) (he : e < t.cap) {n z : Nat} (q x : Nat) (hnz : n ≤ z) (hz : z < t.cap)
    (hzn : slot t (lin t.cap e z) = none) (hcz : t.C (lin t.cap e z) = false)
    (ho : ∀ y, n ≤ y → y < z → (slot t (lin t.cap e y)).isSome) :
    (n < z → lin t.cap e z = 0 → insertAfter t (lin t.cap e n) (lin t.cap e z) q x = .error .ub) ∧
    (n = z ∨ lin t.cap e z ≠ 0 →
      ∃ t' hd, insertAfter t (lin t.cap e n) (lin t.cap e z) q x = .ok (t', hd) ∧ Sized t' ∧ t'.log = t.log ∧
        t'.size = t.size ∧ t'.width = t.width ∧ t'.v = t.v ∧
        (∀ y < t.cap, t'.C (lin t.cap e y) = linIns (fun y => t.C (lin t.cap e y)) n z false y) ∧
        (∀ y < t.cap, slot t' (lin t.cap e y) = linIns (fun y => slot t (lin t.cap e y)) n z (some (q, x)) y) ∧
        (n = z ∨ lin t.cap e n < lin t.cap e z ∨ lin t.cap e n / 64 ≠ lin t.cap e z / 64 → hd = loc t' (lin t.cap e n))) := by
  have hl : ∀ y, lin t.cap e y < t.cap := fun y => lin_lt _ (cap_pos t)
  have key : ∀ i j, i < t.cap → j < t.cap → (lin t.cap e i = lin t.cap e j ↔ i = j) :=
    fun i j hi hj => ⟨fun hc => lin_inj he hi hj hc, fun hc => by rw [hc]⟩
  by_cases hn : n = z
  · subst hn
    refine ⟨fun hc => by omega, fun _ => ?_⟩
    obtain ⟨t', h1, wf1, a1, a2, a3, a4, a5, sl, lo⟩ := setAtEmpty_spec h.wf q x (h.bkt (hl n)) hzn
    refine ⟨t', _, ?_, ⟨wf1, ?_, ?_, ?_⟩, a1, a2, a3, a4, ?_, ?_, fun _ => rfl⟩
    · rw [insertAfter, sexists_ok h.wf (h.bkt (hl n)), hzn, bind_ok]
      simp only [Option.isSome_none, Bool.false_eq_true, if_false]
      exact h1
    · rw [a4, Tab.cap, a1]; exact h.vlen
    · rw [a5, Tab.cap, a1]; exact h.clen
    · rw [a1]; exact h.small
    · intro y hy
      rw [linIns]
      have e1 : t'.C (lin t.cap e y) = t.C (lin t.cap e y) := by rw [Tab.C, a5]; rfl
      rw [e1]
      by_cases hyn : y = n
      · subst hyn; simp [hcz]
      · rw [if_neg hyn, if_neg (by omega)]
    · intro y hy
      rw [sl, linIns]
      by_cases hyn : y = n
      · subst hyn; simp
      · rw [if_neg hyn, if_neg, if_neg (by omega)]
        rw [key _ _ hy hz]; exact hyn
  · have hlt : n < z := by omega
    obtain ⟨t1, h1, sz1, s1, c1⟩ := shiftC_spec (t := t) he n (z - n) (t.cap + 1) z t h ⟨rfl, rfl, rfl, rfl, rfl⟩ (by omega) (by omega) hz
    have hcap : t1.cap = t.cap := by simp only [Tab.cap, s1.log]
    have hsl : ∀ p, slot t1 p = slot t p := fun p => by simp only [slot, s1.buckets]
    have hspec := shiftInsertSparse_spec (t := t1) sz1.wf (n := lin t.cap e n) (en := lin t.cap e z) q x
      (by rw [hcap]; exact hl n) (by rw [hcap]; exact hl z)
      (by rw [Ne, key n z (by omega) hz]; exact hn)
      (by have := sz1.capS; omega) (by rw [hsl]; exact hzn)
      (by
        rw [hcap]
        intro p hp hlt2
        obtain ⟨y, hy, rfl⟩ : ∃ y < t.cap, p = lin t.cap e y := ⟨rel t.cap e p, rel_lt _ (cap_pos t), (lin_rel he hp).symm⟩
        rw [lin_sub he hy (by omega), lin_sub he hz (by omega)] at hlt2
        rw [hsl]
        rw [show z + t.cap - n = z - n + t.cap by omega, Nat.add_mod_right, Nat.mod_eq_of_lt (show z - n < t.cap by omega)] at hlt2
        by_cases hny : n ≤ y
        · rw [show y + t.cap - n = y - n + t.cap by omega, Nat.add_mod_right, Nat.mod_eq_of_lt (show y - n < t.cap by omega)] at hlt2
          exact ho y hny (by omega)
        · rw [Nat.mod_eq_of_lt (show y + t.cap - n < t.cap by omega)] at hlt2; omega)
    have hstart : insertAfter t (lin t.cap e n) (lin t.cap e z) q x =
        (shiftInsertSparse t1 (lin t.cap e n) (lin t.cap e z) q x).bind fun r =>
          (CSH.setC r.1 (lin t.cap e n) false).bind fun t => .ok (t, r.2) := by
      rw [insertAfter, sexists_ok h.wf (h.bkt (hl n)), ho n (Nat.le_refl _) hlt, bind_ok]
      simp only [if_true]
      rw [shiftInsert, h1, bind_ok]
    rw [hstart]
    refine ⟨fun _ h0 => by rw [hspec.1 h0]; rfl, fun hor => ?_⟩
    obtain ⟨t2, hd, h2, wf2, a1, a2, a3, a4, a5, sl, _, hh⟩ := hspec.2 (by omega)
    have hlog : t2.log = t.log := a1.trans s1.log
    have hcap2 : t2.cap = t.cap := by simp only [Tab.cap, hlog]
    have sz2 : Sized t2 := ⟨wf2, by rw [a4, hcap2, ← hcap]; exact sz1.vlen, by rw [a5, hcap2, ← hcap]; exact sz1.clen,
      by rw [hlog]; exact h.small⟩
    refine ⟨{ t2 with c := t2.c.set (lin t.cap e n) false }, hd, ?_, sz2.setC _ _, hlog, a2.trans s1.size,
      a3.trans s1.width, a4.trans s1.v, ?_, ?_, ?_⟩
    · rw [h2, bind_ok, setC_ok sz2 _ (by rw [hcap2]; exact hl n), bind_ok]
    · intro y hy
      rw [C_set sz2 _ (by rw [hcap2]; exact hl n), linIns]
      have e1 : t2.C (lin t.cap e y) = t1.C (lin t.cap e y) := by rw [Tab.C, a5]; rfl
      rw [e1, c1 y hy]
      by_cases hyn : y = n
      · subst hyn; simp
      · rw [if_neg hyn, if_neg]
        rw [key _ _ hy (by omega)]; exact hyn
    · intro y hy
      have e1 : slot ({ t2 with c := t2.c.set (lin t.cap e n) false } : Tab) (lin t.cap e y) = slot t2 (lin t.cap e y) := rfl
      rw [e1, sl _ (by rw [hcap]; exact hl y), hcap, circIns_lin he _ _ hnz hz hy]
      congr 1
      funext y; rw [hsl]
    · intro hc
      have := hh (by rcases hc with hc | hc; omega; exact hc)
      rw [this]; rfl

end Tdc.CSH
