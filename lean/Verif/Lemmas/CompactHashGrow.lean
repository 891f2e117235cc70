import Verif.Lemmas.CompactHashInsert

/-!
# Compact hash table: keys, growing, and the table as a finite map
-/

namespace Tdc.CSH

/-! ## The hash function is a bijection -/

theorem hashfn_lt (x w : Nat) : hashfn x w < 2 ^ w := Nat.mod_lt _ (Nat.pow_pos (by decide))

theorem testBit_hashfn (x w i : Nat) :
    (hashfn x w).testBit i = (decide (i < w) && (x.testBit i ^^ (decide (w / 2 + 1 ≤ i) && x.testBit (i - (w / 2 + 1))))) := by
  simp only [hashfn, Nat.testBit_mod_two_pow, Nat.testBit_xor, Nat.testBit_shiftLeft]
  by_cases h : i < w <;> simp [h]

theorem hashfn_hashfn {x w : Nat} (hx : x < 2 ^ w) : hashfn (hashfn x w) w = x := by
  apply Nat.eq_of_testBit_eq
  intro i
  rw [testBit_hashfn, testBit_hashfn, testBit_hashfn]
  by_cases hi : i < w
  · by_cases h2 : w / 2 + 1 ≤ i
    · have h3 : ¬ (w / 2 + 1 ≤ i - (w / 2 + 1)) := by omega
      simp [hi, h2, h3, show i - (w / 2 + 1) < w by omega]
    · simp [hi, h2]
  · have : x.testBit i = false := Nat.testBit_lt_two_pow (lt_of_lt_of_le hx (Nat.pow_le_pow_right (by decide) (by omega)))
    simp [hi, this]

theorem log_lt_realWidth (t : Tab) : t.log < t.realWidth := by rw [Tab.realWidth]; omega

theorem width_le_realWidth (t : Tab) : t.width ≤ t.realWidth := by rw [Tab.realWidth]; omega

theorem compose_eq (t : Tab) {h q : Nat} (hh : h < t.cap) : t.compose h q = hashfn (q * t.cap + h) t.realWidth := by
  rw [Tab.compose, ← Nat.shiftLeft_add_eq_or_of_lt hh, Nat.shiftLeft_eq]; rfl

theorem decompose_compose (t : Tab) {h q : Nat} (hh : h < t.cap) (hq : q < 2 ^ (t.realWidth - t.log)) :
    t.decompose (t.compose h q) = (h, q) := by
  have hlt : q * t.cap + h < 2 ^ t.realWidth := by
    have e : 2 ^ t.realWidth = 2 ^ (t.realWidth - t.log) * t.cap := by
      rw [Tab.cap, ← pow_add]; congr 1; have := log_lt_realWidth t; omega
    rw [e]
    calc q * t.cap + h < q * t.cap + t.cap := by omega
      _ = (q + 1) * t.cap := (Nat.succ_mul q t.cap).symm
      _ ≤ _ := Nat.mul_le_mul_right _ hq
  rw [Tab.decompose, compose_eq t hh, hashfn_hashfn hlt]
  have hp := cap_pos t
  change ((q * t.cap + h) % t.cap, (q * t.cap + h) / t.cap) = (h, q)
  rw [Nat.mul_comm q, Nat.mul_add_mod, Nat.mod_eq_of_lt hh, Nat.mul_add_div hp, Nat.div_eq_of_lt hh, Nat.add_zero]

theorem compose_decompose (t : Tab) {key : Nat} (hk : key < 2 ^ t.realWidth) :
    t.compose (t.decompose key).1 (t.decompose key).2 = key := by
  rw [compose_eq t (decompose_lt t key), Tab.decompose]
  simp only
  change hashfn (hashfn key t.realWidth / t.cap * t.cap + hashfn key t.realWidth % t.cap) t.realWidth = key
  rw [Nat.mul_comm, Nat.div_add_mod, hashfn_hashfn hk]

theorem decompose_quot_lt (t : Tab) (key : Nat) : (t.decompose key).2 < 2 ^ (t.realWidth - t.log) := by
  rw [Tab.decompose]
  simp only
  rw [Nat.div_lt_iff_lt_mul (Nat.pow_pos (by decide)), ← pow_add]
  have := log_lt_realWidth t
  rw [show t.realWidth - t.log + t.log = t.realWidth by omega]
  exact hashfn_lt _ _

/-! ## The table as a map -/

variable {t : Tab} {home : Nat → Nat}

/-- The table `t` stores the map `M`. -/
def RepH (t : Tab) (home : Nat → Nat) (M : Nat → Option Nat) : Prop :=
  Inv t home ∧
  (∀ h q x, Has t home h q x → q < 2 ^ (t.realWidth - t.log) ∧ t.compose h q < 2 ^ t.width) ∧
  (∀ key x, M key = some x ↔ ∃ h q, Has t home h q x ∧ t.compose h q = key)

/-- The table `t` stores the map `M` and is at most half full. -/
def Rep (t : Tab) (M : Nat → Option Nat) : Prop := (∃ home, RepH t home M) ∧ t.size < t.cap / 2

/-- map update -/
def upd (M : Nat → Option Nat) (key x : Nat) : Nat → Option Nat := fun k => if k = key then some x else M k

/-- `h` refers to the value of `key`: it reads that value, and writing changes that value and nothing else. -/
def RefTo (t : Tab) (M : Nat → Option Nat) (key : Nat) (h : Handle) : Prop :=
  ∃ p q x, slot t p = some (q, x) ∧ h = loc t p ∧ M key = some x ∧
    ∀ y, ∃ t', hsetVal t h y = .ok t' ∧ Rep t' (upd M key y) ∧ t'.size = t.size ∧ t'.width = t.width ∧ t'.log = t.log

theorem Has.lt (I : Inv t home) {h q x : Nat} (hh : Has t home h q x) : h < t.cap := by
  obtain ⟨p, hp, h1, h2⟩ := hh
  rw [← h2]; exact I.home_lt p hp (by rw [h1]; rfl)

/-- An entry determines position and key. -/
theorem RepH.key {M : Nat → Option Nat} (R : RepH t home M) {key p q x : Nat} (hk : key < 2 ^ t.width) (hp : p < t.cap)
    (hs : slot t p = some (q, x)) :
    t.compose (home p) q = key ↔ (home p = (t.decompose key).1 ∧ q = (t.decompose key).2) := by
  obtain ⟨I, hq, -⟩ := R
  have hh : Has t home (home p) q x := ⟨p, hp, hs, rfl⟩
  obtain ⟨h1, h2⟩ := hq _ _ _ hh
  constructor
  · rintro rfl
    rw [decompose_compose t (hh.lt I) h1]; exact ⟨rfl, rfl⟩
  · rintro ⟨e1, e2⟩
    rw [e1, e2]
    exact compose_decompose t (lt_of_lt_of_le hk (Nat.pow_le_pow_right (by decide) (width_le_realWidth t)))

/-- Changing the value of an entry. -/
theorem RepH.setVal {M : Nat → Option Nat} (R : RepH t home M) {key p q x : Nat} (hp : p < t.cap)
    (hs : slot t p = some (q, x)) (hkey : t.compose (home p) q = key) (y : Nat) :
    ∃ t', hsetVal t (loc t p) y = .ok t' ∧ RepH t' home (upd M key y) ∧ t'.size = t.size ∧ t'.width = t.width ∧
      t'.log = t.log := by
  obtain ⟨I, hq, hM⟩ := R
  obtain ⟨t', h1, sm, wf', sl⟩ := hset_loc I.sz.wf (q, y) (p := p) (by rw [hs]; rfl)
  have hcap : t'.cap = t.cap := by simp only [Tab.cap, sm.log]
  have hrw : t'.realWidth = t.realWidth := by simp only [Tab.realWidth, sm.log, sm.width]
  have hcomp : ∀ h q, t'.compose h q = t.compose h q := fun h q => by simp only [Tab.compose, sm.log, hrw]
  have hu : ∀ r, (slot t' r).isSome = (slot t r).isSome := fun r => slot_same I.sz.wf wf' sm r
  have hV : t'.V = t.V := by funext r; simp only [Tab.V, sm.v]
  have hC : t'.C = t.C := by funext r; simp only [Tab.C, sm.c]
  have hhas : ∀ h q' z, Has t' home h q' z ↔ ∃ r < t.cap, (if r = p then some (q, y) else slot t r) = some (q', z) ∧ home r = h := by
    intro h q' z
    simp only [Has, hcap, sl]
  have hold : ∀ h q' z, Has t' home h q' z → ∃ z', Has t home h q' z' := by
    intro h q' z hh
    obtain ⟨r, r1, r2, r3⟩ := (hhas h q' z).mp hh
    by_cases hrp : r = p
    · rw [if_pos hrp] at r2
      simp only [Option.some.injEq, Prod.mk.injEq] at r2
      exact ⟨x, r, r1, by rw [hrp, hs, r2.1], r3⟩
    · rw [if_neg hrp] at r2
      exact ⟨z, r, r1, r2, r3⟩
  refine ⟨t', ?_, ⟨⟨⟨wf', ?_, ?_, ?_⟩, ?_, ?_, ?_, ?_⟩, ?_, ?_⟩, sm.size, sm.width, sm.log⟩
  · rw [hsetVal, hget_loc I.sz.wf hs, bind_ok]; exact h1
  · rw [sm.v, hcap]; exact I.sz.vlen
  · rw [sm.c, hcap]; exact I.sz.clen
  · rw [sm.log]; exact I.sz.small
  · intro e he hen
    rw [hcap] at he
    have : slot t e = none := by
      have := hu e; rw [hen] at this; simpa using this.symm
    have L := I.linv e he this
    simp only [hcap, hu, hV, hC]
    exact L
  · intro r hr ho
    rw [hcap] at hr ⊢
    rw [hu] at ho
    exact I.home_lt r hr ho
  · intro r r' q1 x1 x2 hr hr' k1 k2 k3
    rw [hcap] at hr hr'
    rw [sl] at k1 k2
    have aux : ∀ r x1, (if r = p then some (q, y) else slot t r) = some (q1, x1) → ∃ x2, slot t r = some (q1, x2) := by
      intro r x1 h
      by_cases hrp : r = p
      · rw [if_pos hrp] at h
        simp only [Option.some.injEq, Prod.mk.injEq] at h
        exact ⟨x, by rw [hrp, hs, h.1]⟩
      · rw [if_neg hrp] at h; exact ⟨x1, h⟩
    obtain ⟨z1, w1⟩ := aux r x1 k1
    obtain ⟨z2, w2⟩ := aux r' x2 k2
    exact I.inj r r' q1 z1 z2 hr hr' w1 w2 k3
  · rw [sm.size, ← I.card, hcap]
    simp only [hu]
  · intro h q' z hh
    obtain ⟨z', h2⟩ := hold h q' z hh
    rw [hrw, sm.log, hcomp, sm.width]
    exact hq h q' z' h2
  · intro k z
    simp only [upd, hcomp]
    by_cases hk : k = key
    · rw [if_pos hk]
      simp only [Option.some.injEq]
      constructor
      · rintro rfl
        exact ⟨home p, q, (hhas _ _ _).mpr ⟨p, hp, by simp, rfl⟩, by rw [hk]; exact hkey⟩
      · rintro ⟨h, q', hh, hc⟩
        obtain ⟨r, r1, r2, r3⟩ := (hhas h q' z).mp hh
        by_cases hrp : r = p
        · rw [if_pos hrp] at r2
          simp only [Option.some.injEq, Prod.mk.injEq] at r2
          exact r2.2
        · exfalso
          rw [if_neg hrp] at r2
          have a1 : Has t home h q' z := ⟨r, r1, r2, r3⟩
          have a2 : Has t home (home p) q x := ⟨p, hp, hs, rfl⟩
          have e1 := decompose_compose t (a1.lt I) (hq _ _ _ a1).1
          have e2 := decompose_compose t (a2.lt I) (hq _ _ _ a2).1
          rw [hc, hk] at e1
          rw [hkey] at e2
          rw [e1] at e2
          simp only [Prod.mk.injEq] at e2
          refine hrp (I.inj r p q' z x r1 hp r2 (by rw [hs, e2.2]) (by rw [r3, e2.1]))
    · rw [if_neg hk, hM]
      constructor
      · rintro ⟨h, q', ⟨r, r1, r2, r3⟩, hc⟩
        refine ⟨h, q', (hhas h q' z).mpr ⟨r, r1, ?_, r3⟩, hc⟩
        rw [if_neg]
        · exact r2
        · rintro rfl
          rw [hs] at r2
          simp only [Option.some.injEq, Prod.mk.injEq] at r2
          exact hk (by rw [← hc, ← hkey, ← r3, r2.1])
      · rintro ⟨h, q', hh, hc⟩
        obtain ⟨r, r1, r2, r3⟩ := (hhas h q' z).mp hh
        by_cases hrp : r = p
        · exfalso
          rw [if_pos hrp] at r2
          simp only [Option.some.injEq, Prod.mk.injEq] at r2
          exact hk (by rw [← hc, ← hkey, ← r3, hrp, r2.1])
        · rw [if_neg hrp] at r2
          exact ⟨h, q', ⟨r, r1, r2, r3⟩, hc⟩

theorem RepH.refTo {M : Nat → Option Nat} (R : RepH t home M) (hsz : t.size < t.cap / 2) {key p q x : Nat} (hp : p < t.cap)
    (hs : slot t p = some (q, x)) (hkey : t.compose (home p) q = key) : RefTo t M key (loc t p) := by
  refine ⟨p, q, x, hs, rfl, (R.2.2 key x).mpr ⟨home p, q, ⟨p, hp, hs, rfl⟩, hkey⟩, fun y => ?_⟩
  obtain ⟨t', h1, h2, h3, h4, h5⟩ := R.setVal hp hs hkey y
  exact ⟨t', h1, ⟨⟨home, h2⟩, by rw [h3, Tab.cap, h5]; exact hsz⟩, h3, h4, h5⟩

/-- **`insert_handler`** on the map. -/
theorem RepH.insertCore {M : Nat → Option Nat} (R : RepH t home M) (key val : Nat) (hk : key < 2 ^ t.width)
    (hroom : t.size + 1 < t.cap / 2) :
    (∃ x hd, M key = some x ∧ insertCore t key val = .ok (t, hd, true) ∧ RefTo t M key hd) ∨
    (M key = none ∧ ((CSH.insertCore t key val = .error .ub ∧ Stuck t) ∨
      ∃ t' hd home', CSH.insertCore t key val = .ok (t', hd, false) ∧ RepH t' home' (upd M key val) ∧
        t'.size = t.size + 1 ∧ t'.log = t.log ∧ t'.width = t.width ∧
        (7 ≤ t.log → RefTo t' (upd M key val) key hd))) := by
  have I := R.1
  have hkr : key < 2 ^ t.realWidth := lt_of_lt_of_le hk (Nat.pow_le_pow_right (by decide) (width_le_realWidth t))
  rcases I.insertCore key val hroom with ⟨p, x, h1, h2, h3, h4⟩ | ⟨h1, h2⟩
  · left
    have hkey := (R.key hk h1 h2).mpr ⟨h3, rfl⟩
    exact ⟨x, loc t p, (R.2.2 key x).mpr ⟨home p, _, ⟨p, h1, h2, rfl⟩, hkey⟩, h4, R.refTo (by omega) h1 h2 hkey⟩
  · right
    refine ⟨?_, ?_⟩
    · by_contra hc
      obtain ⟨x, hx⟩ := Option.ne_none_iff_exists'.mp hc
      obtain ⟨h, q, ⟨p, p1, p2, p3⟩, hc⟩ := (R.2.2 key x).mp hx
      rw [← p3] at hc
      obtain ⟨e1, e2⟩ := (R.key hk p1 p2).mp hc
      rw [e2] at p2
      exact h1 p x p1 p2 e1
    · rcases h2 with h2 | ⟨t', hd, home', k1, k2, k3, k4, k5, k6, p, p1, p2, p3, p4⟩
      · exact Or.inl h2
      · right
        have hcap : t'.cap = t.cap := by simp only [Tab.cap, k4]
        have hrw : t'.realWidth = t.realWidth := by simp only [Tab.realWidth, k4, k5]
        have hcomp : ∀ h q, t'.compose h q = t.compose h q := fun h q => by simp only [Tab.compose, k4, hrw]
        have hck := compose_decompose t hkr
        have R' : RepH t' home' (upd M key val) := by
          refine ⟨k2, ?_, ?_⟩
          · intro h q x hh
            rw [hrw, k4, hcomp, k5]
            rcases (k6 h q x).mp hh with hh | ⟨rfl, rfl, rfl⟩
            · exact R.2.1 h q x hh
            · exact ⟨decompose_quot_lt t key, by rw [hck]; exact hk⟩
          · intro k x
            simp only [hcomp, k6, upd]
            by_cases hkk : k = key
            · rw [if_pos hkk]
              simp only [Option.some.injEq]
              constructor
              · rintro rfl
                exact ⟨_, _, Or.inr ⟨rfl, rfl, rfl⟩, by rw [hck, hkk]⟩
              · rintro ⟨h, q, hh | ⟨rfl, rfl, rfl⟩, hc⟩
                · exfalso
                  obtain ⟨p, p1, p2, p3⟩ := hh
                  rw [← p3, hkk] at hc
                  obtain ⟨e1, e2⟩ := (R.key hk p1 p2).mp hc
                  rw [e2] at p2
                  exact h1 p x p1 p2 e1
                · rfl
            · rw [if_neg hkk, R.2.2]
              constructor
              · rintro ⟨h, q, hh, hc⟩; exact ⟨h, q, Or.inl hh, hc⟩
              · rintro ⟨h, q, hh | ⟨rfl, rfl, rfl⟩, hc⟩
                · exact ⟨h, q, hh, hc⟩
                · exfalso; rw [hck] at hc; exact hkk hc.symm
        refine ⟨t', hd, home', k1, R', k3, k4, k5, fun hlog => ?_⟩
        rw [p4 hlog]
        exact R'.refTo (by rw [k3, hcap]; exact hroom) (by rw [hcap]; exact p1) p2 (by rw [p3, hcomp, hck])

/-! ## Walking over the table -/

theorem Inv.home_lin (I : Inv t home) {e : Nat} (he : e < t.cap) {x : Nat}
    (ho : (slot t (lin t.cap e x)).isSome = true) :
    home (lin t.cap e x) = lin t.cap e (rel t.cap e (home (lin t.cap e x))) :=
  (lin_rel he (I.home_lt _ (lin_lt _ (cap_pos t)) ho)).symm

theorem nextV_spec (h : Sized t) {e : Nat} {g : Nat} (hg : t.V (lin t.cap e g) = true) :
    ∀ (k fuel y : Nat), y + k = g → k < fuel → (∀ x, y ≤ x → x < g → t.V (lin t.cap e x) = false) →
    nextV t fuel (lin t.cap e y) = .ok (lin t.cap e g)
  | 0, fuel + 1, y, hy, _, _ => by
    obtain rfl : y = g := by omega
    rw [nextV, vget_V h (lin_lt _ (cap_pos t)), bind_ok, hg]; rfl
  | k + 1, fuel + 1, y, hy, hf, hv => by
    rw [nextV, vget_V h (lin_lt _ (cap_pos t)), bind_ok, hv y (Nat.le_refl _) (by omega)]
    simp only [Bool.false_eq_true, if_false]
    rw [Tab.next, lin_next]
    exact nextV_spec h hg k fuel (y + 1) (by omega) (by omega) (fun x a b => hv x (by omega) b)

/-- The entries at positions `x, x+1, …` behind `e`. -/
def entries (t : Tab) (home : Nat → Nat) (e : Nat) : Nat → Nat → List (Nat × Nat)
  | 0, _ => []
  | k + 1, x => if (slot t (lin t.cap e x)).isSome then (home (lin t.cap e x), lin t.cap e x) :: entries t home e k (x + 1)
    else entries t home e k (x + 1)

theorem next_prev (t : Tab) {p : Nat} (hp : p < t.cap) : t.next (t.prev p) = p := by
  rw [Tab.next, Tab.prev, Nat.mod_add_mod, show p + t.cap - 1 + 1 = p + t.cap by omega, Nat.add_mod_right,
    Nat.mod_eq_of_lt hp]

theorem Inv.iterAll (I : Inv t home) {e : Nat} (he : e < t.cap) (hen : slot t e = none) :
    ∀ (k x : Nat), x + k = t.cap → 0 < k →
    (∀ fuel ia, 2 * k + 1 ≤ fuel → (x = 0 ∨ slot t (lin t.cap e (x - 1)) = none) →
      iterAll t e fuel false (lin t.cap e x) ia = .ok (entries t home e k x)) ∧
    (∀ fuel, 2 * k + 1 ≤ fuel → 0 < x → (slot t (lin t.cap e (x - 1))).isSome = true →
      CSH.iterAll t e fuel true (lin t.cap e x) (home (lin t.cap e (x - 1))) = .ok (entries t home e k x)) := by
  intro k
  induction k with
  | zero => intro x _ h; omega
  | succ k ih =>
  intro x hx _
  have L := I.linv e he hen
  have hl : ∀ y, lin t.cap e y < t.cap := fun y => lin_lt _ (cap_pos t)
  have hex : sexists t (lin t.cap e x) = .ok (slot t (lin t.cap e x)).isSome := sexists_ok I.sz.wf (I.sz.bkt (hl x))
  have hend : lin t.cap e x = e ↔ x = t.cap - 1 := by
    constructor
    · intro h
      exact lin_inj he (by omega) (by omega) (h.trans (lin_last he).symm)
    · rintro rfl; exact lin_last he
  by_cases ho : (slot t (lin t.cap e x)).isSome = true
  · have hk : 0 < k := by
      by_contra hc
      have : x = t.cap - 1 := by omega
      rw [this, lin_last he, hen] at ho; simp at ho
    have ih2 := (ih (x + 1) (by omega) hk).2
    simp only [Nat.add_sub_cancel] at ih2
    -- one step in a cluster
    have step : ∀ fuel ia, 2 * k + 2 ≤ fuel →
        ((if t.C (lin t.cap e x) = true then nextV t (t.cap + 1) (t.next ia) else .ok ia) = .ok (home (lin t.cap e x))) →
        CSH.iterAll t e fuel true (lin t.cap e x) ia = .ok (entries t home e (k + 1) x) := by
      intro fuel ia hf hia
      obtain ⟨fuel, rfl⟩ : ∃ f, fuel = f + 1 := ⟨fuel - 1, by omega⟩
      rw [CSH.iterAll, hex, ho, bind_ok]
      simp only [Bool.not_true, Bool.false_eq_true, if_false]
      rw [vget_C I.sz (hl x), bind_ok, hia, bind_ok, Tab.next, lin_next, ih2 fuel (by omega) (by omega) ho, bind_ok, entries,
        if_pos ho]
    have hcapx : x < t.cap := by omega
    have hrx := L.le x hcapx ho
    have hvx : t.V (lin t.cap e (rel t.cap e (home (lin t.cap e x)))) = true :=
      (L.v_iff _ (by omega)).mpr ⟨x, hcapx, ho, rfl⟩
    constructor
    · intro fuel ia hf hprev
      obtain ⟨fuel, rfl⟩ : ∃ f, fuel = f + 1 := ⟨fuel - 1, by omega⟩
      rw [CSH.iterAll, hex, ho, bind_ok]
      simp only [if_true]
      apply step _ _ (by omega)
      -- first of a cluster
      have hrx2 : rel t.cap e (home (lin t.cap e x)) = x := by
        by_contra hc
        have h2 := L.full x hcapx ho (x - 1) (by omega) (by omega)
        rcases hprev with h | h
        · omega
        · rw [h] at h2; simp at h2
      have hc : t.C (lin t.cap e x) = true := by
        refine (L.c_iff x hcapx).mpr ⟨ho, fun y hy hoy heq => ?_⟩
        have := L.le y (by omega) hoy
        omega
      rw [if_pos hc, next_prev t (hl x)]
      rw [hrx2] at hvx
      rw [nextV_spec I.sz hvx 0 _ x (by omega) (by omega) (fun _ _ _ => by omega), I.home_lin he ho, hrx2]
    · intro fuel hf hx0 hpo
      apply step _ _ (by omega)
      have hm := L.mono (x - 1) x (by omega) hcapx hpo ho
      rw [I.home_lin he hpo]
      have hr' : rel t.cap e (home (lin t.cap e (x - 1))) < t.cap := rel_lt _ (cap_pos t)
      by_cases hc : t.C (lin t.cap e x) = true
      · rw [if_pos hc]
        have hne := ((L.c_iff x hcapx).mp hc).2 (x - 1) (by omega) hpo
        rw [Tab.next, lin_next, I.home_lin he ho]
        refine nextV_spec I.sz hvx (rel t.cap e (home (lin t.cap e x)) - (rel t.cap e (home (lin t.cap e (x - 1))) + 1)) _ _
          (by omega) (by omega) (fun y h1 h2 => ?_)
        by_contra hv
        obtain ⟨w, w1, w2, w3⟩ := (L.v_iff y (by omega)).mp (by simpa using hv)
        rcases Nat.lt_or_ge w x with h | h
        · by_cases hw : w = x - 1
          · rw [hw] at w3; omega
          · have := L.mono w (x - 1) (by omega) (by omega) w2 hpo
            omega
        · by_cases hw : w = x
          · rw [hw] at w3; omega
          · have := L.mono x w (by omega) w1 ho w2
            omega
      · rw [if_neg hc]
        have heq : rel t.cap e (home (lin t.cap e (x - 1))) = rel t.cap e (home (lin t.cap e x)) := by
          by_contra hne
          refine hc ((L.c_iff x hcapx).mpr ⟨ho, fun y hy hoy heq => ?_⟩)
          by_cases hw : y = x - 1
          · rw [hw] at heq; exact hne heq
          · have := L.mono y (x - 1) (by omega) (by omega) hoy hpo
            omega
        rw [heq, ← I.home_lin he ho]
  · have hno : (slot t (lin t.cap e x)).isSome = false := by simpa using ho
    have hnone : slot t (lin t.cap e x) = none := by simpa using ho
    -- one step outside
    have step : ∀ fuel ia, 2 * k + 2 ≤ fuel →
        CSH.iterAll t e fuel false (lin t.cap e x) ia = .ok (entries t home e (k + 1) x) := by
      intro fuel ia hf
      obtain ⟨fuel, rfl⟩ : ∃ f, fuel = f + 1 := ⟨fuel - 1, by omega⟩
      rw [CSH.iterAll, hex, hno, bind_ok]
      simp only [Bool.false_eq_true, if_false]
      rw [entries, if_neg ho]
      by_cases hxe : lin t.cap e x = e
      · rw [if_pos hxe]
        rw [hend] at hxe
        obtain rfl : k = 0 := by omega
        rfl
      · rw [if_neg hxe, Tab.next, lin_next]
        rw [hend] at hxe
        exact (ih (x + 1) (by omega) (by omega)).1 fuel ia (by omega) (Or.inr (by simpa using hnone))
    constructor
    · intro fuel ia hf _
      exact step fuel ia (by omega)
    · intro fuel hf _ _
      obtain ⟨fuel, rfl⟩ : ∃ f, fuel = f + 1 := ⟨fuel - 1, by omega⟩
      rw [CSH.iterAll, hex, hno, bind_ok]
      simp only [Bool.not_false, if_true]
      exact step fuel _ (by omega)

theorem firstEmpty_spec (h : Sized t) {e : Nat} (he : e < t.cap) (hen : slot t e = none) :
    ∀ (k fuel i : Nat), i + k = e → k < fuel → ∃ s, s ≤ e ∧ slot t s = none ∧ firstEmpty t fuel i = .ok s
  | 0, fuel + 1, i, hi, _ => by
    obtain rfl : i = e := by omega
    refine ⟨i, Nat.le_refl _, hen, ?_⟩
    rw [firstEmpty, sexists_ok h.wf (h.bkt he), hen, bind_ok]; rfl
  | k + 1, fuel + 1, i, hi, hf => by
    by_cases ho : slot t i = none
    · refine ⟨i, by omega, ho, ?_⟩
      rw [firstEmpty, sexists_ok h.wf (h.bkt (by omega)), ho, bind_ok]; rfl
    · obtain ⟨s, s1, s2, s3⟩ := firstEmpty_spec h he hen k fuel (i + 1) (by omega) (by omega)
      refine ⟨s, s1, s2, ?_⟩
      rw [firstEmpty, sexists_ok h.wf (h.bkt (by omega)), Option.isSome_iff_ne_none.mpr ho, bind_ok]
      exact s3

end Tdc.CSH
