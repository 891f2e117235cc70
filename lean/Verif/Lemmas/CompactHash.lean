import Verif.Lemmas.CompactHashGroup

/-!
# Compact hash table: insertion
-/

namespace Tdc.CSH

variable {t : Tab} {home : Nat → Nat}

/-- The invariant of the table.  `home p` is the initial address of the entry at position `p`; it is not stored. -/
structure Inv (t : Tab) (home : Nat → Nat) : Prop where
  sz : Sized t
  linv : ∀ e < t.cap, slot t e = none →
    LinInv t.cap (fun x => (slot t (lin t.cap e x)).isSome = true) (fun x => rel t.cap e (home (lin t.cap e x)))
      (fun x => t.V (lin t.cap e x)) (fun x => t.C (lin t.cap e x))
  home_lt : ∀ p < t.cap, (slot t p).isSome = true → home p < t.cap
  inj : ∀ p p' q x x', p < t.cap → p' < t.cap → slot t p = some (q, x) → slot t p' = some (q, x') →
    home p = home p' → p = p'
  card : ((Finset.range t.cap).filter fun p => (slot t p).isSome = true).card = t.size

/-- An entry with initial address `h`, quotient `q` and value `x` is in the table. -/
def Has (t : Tab) (home : Nat → Nat) (h q x : Nat) : Prop := ∃ p < t.cap, slot t p = some (q, x) ∧ home p = h

theorem Inv.exists_empty (I : Inv t home) (h : t.size < t.cap) : ∃ e < t.cap, slot t e = none := by
  by_contra hc
  push Not at hc
  have : (Finset.range t.cap).filter (fun p => (slot t p).isSome = true) = Finset.range t.cap := by
    rw [Finset.filter_eq_self]
    intro p hp
    exact Option.isSome_iff_ne_none.mpr (hc p (Finset.mem_range.mp hp))
  have h2 := I.card
  rw [this, Finset.card_range] at h2
  omega

theorem setV_self (h : Sized t) {p : Nat} (hp : p < t.cap) (hv : t.V p = true) :
    ({ t with v := t.v.set p true } : Tab) = t := by
  have hl : p < t.v.length := by rw [h.vlen]; exact hp
  have : t.v.set p true = t.v := by
    apply List.ext_getElem?
    intro i
    rw [List.getElem?_set]
    by_cases hpi : p = i
    · subst hpi
      rw [Tab.V, List.getD_eq_getElem?_getD, List.getElem?_eq_getElem hl] at hv
      simp only [Option.getD_some] at hv
      simp [hl, hv]
    · simp [hpi]
  rw [this]

/-- The data found by `search_existing_group`, seen from the empty position `e`. -/
structure Found (t : Tab) (home : Nat → Nat) (e ia s n z : Nat) : Prop where
  an : rel t.cap e ia ≤ n
  nz : n ≤ z
  zc : z < t.cap
  zn : slot t (lin t.cap e z) = none
  occ : ∀ y, rel t.cap e ia ≤ y → y < z → (slot t (lin t.cap e y)).isSome = true
  low : ∀ x < n, (slot t (lin t.cap e x)).isSome = true → rel t.cap e (home (lin t.cap e x)) ≤ rel t.cap e ia
  high : ∀ x, n ≤ x → x < t.cap → (slot t (lin t.cap e x)).isSome = true →
    rel t.cap e ia < rel t.cap e (home (lin t.cap e x))
  grp : t.V ia = true → s < n ∧ ∀ x < t.cap,
    ((slot t (lin t.cap e x)).isSome = true ∧ home (lin t.cap e x) = ia) ↔ (s ≤ x ∧ x < n)

theorem Inv.search_at (I : Inv t home) {e ia : Nat} (he : e < t.cap) (hen : slot t e = none) (hia : ia < t.cap)
    (hio : (slot t ia).isSome = true) :
    ∃ s n z, Found t home e ia s n z ∧
      searchGroup { t with v := t.v.set ia true } ia = .ok (lin t.cap e s, lin t.cap e n, lin t.cap e z) := by
  classical
  have L := I.linv e he hen
  set a := rel t.cap e ia with ha
  have hac : a < t.cap := rel_lt _ (cap_pos t)
  have hla : lin t.cap e a = ia := lin_rel he hia
  have hex : ∃ z, a ≤ z ∧ slot t (lin t.cap e z) = none := ⟨t.cap - 1, by omega, by rw [lin_last he]; exact hen⟩
  obtain ⟨h1, h2⟩ := Nat.find_spec hex
  have hzc : Nat.find hex ≤ t.cap - 1 := Nat.find_min' hex ⟨by omega, by rw [lin_last he]; exact hen⟩
  set z := Nat.find hex with hz
  have hocc : ∀ y, a ≤ y → y < z → (slot t (lin t.cap e y)).isSome = true := by
    intro y hy hyz
    have := Nat.find_min hex hyz
    push Not at this
    exact Option.isSome_iff_ne_none.mpr (this hy)
  have haz : a < z := by
    rcases Nat.lt_or_ge a z with h | h
    · exact h
    · have : a = z := by omega
      rw [← this, hla] at h2
      rw [h2] at hio; simp at hio
  have hzn' : ¬ ((slot t (lin t.cap e z)).isSome = true) := by rw [h2]; simp
  obtain ⟨n, n1, n2, n3, n4, n5, n6⟩ := L.split (a := a) (t := z) (by omega) (by omega) hocc hzn'
  have key : ∀ i j, i < t.cap → j < t.cap → (lin t.cap e i = lin t.cap e j ↔ i = j) :=
    fun i j hi hj => ⟨fun hc => lin_inj he hi hj hc, fun hc => by rw [hc]⟩
  have hrel : ∀ x < t.cap, (slot t (lin t.cap e x)).isSome = true →
      (rel t.cap e (home (lin t.cap e x)) = a ↔ home (lin t.cap e x) = ia) := by
    intro x hx ho
    have hh := I.home_lt _ (lin_lt _ (cap_pos t)) ho
    constructor
    · intro h
      rw [← lin_rel he hh, h, hla]
    · intro h; rw [h]
  -- the start of the group found
  have hstart : ∃ s, s < n ∧ t.C (lin t.cap e s) = true ∧ cnt (fun y => t.C (lin t.cap e y)) s n = 1 ∧
      (t.V ia = true → s < n ∧ ∀ x < t.cap,
        ((slot t (lin t.cap e x)).isSome = true ∧ home (lin t.cap e x) = ia) ↔ (s ≤ x ∧ x < n)) := by
    by_cases hv : t.V ia = true
    · obtain ⟨s, s1, s2, s3, s4, s5⟩ := L.group (a := a) (n := n) (by omega) (fun x h1 h2 => hocc x h1 (by omega)) n3 n4
        hac (by simp only [hla]; exact hv)
      refine ⟨s, s2, s3, s4, fun _ => ⟨s2, fun x hx => ?_⟩⟩
      rw [← s5 x hx]
      constructor
      · rintro ⟨o, h⟩; exact ⟨o, (hrel x hx o).mpr h⟩
      · rintro ⟨o, h⟩; exact ⟨o, (hrel x hx o).mp h⟩
    · obtain ⟨s, s1, s2, s3⟩ := L.before (a := a) (n := n) (by omega) n1 (by simp only [hla]; exact hio) n4
      exact ⟨s, s1, s2, s3, fun h => absurd h hv⟩
  obtain ⟨s, s1, s2, s3, s4⟩ := hstart
  refine ⟨s, n, z, ⟨n1, n2, by omega, h2, hocc, n3, n4, s4⟩, ?_⟩
  have szv := I.sz.setV ia true
  have := searchGroup_spec (t := { t with v := t.v.set ia true }) szv (e := e) he (a := a) (s := s) (n := n) (z := z)
    (by show z < t.cap; omega) h2 (by omega) hocc (by
      rw [cnt_left _ haz]
      have hVs : ∀ p, Tab.V { t with v := t.v.set ia true } p = if p = ia then true else t.V p := V_set I.sz true hia
      simp only [hVs]
      rw [if_pos (show lin (Tab.cap { t with v := t.v.set ia true }) e a = ia from hla)]
      simp only [Bool.toNat_true]
      congr 1
      rw [show cnt (fun y => Tab.C { t with v := t.v.set ia true } (lin (Tab.cap { t with v := t.v.set ia true }) e y)) n z
        = cnt (fun y => t.C (lin t.cap e y)) n z from rfl, n6]
      apply cnt_congr
      intro x hx hxz
      have hne : ¬ lin (Tab.cap { t with v := t.v.set ia true }) e x = ia := by
        intro hc
        have : lin t.cap e x = lin t.cap e a := by rw [hla]; exact hc
        rw [key _ _ (by omega) hac] at this
        omega
      rw [if_neg hne]
      rfl) n2 n5 s1 s2 s3
  rw [show lin (Tab.cap { t with v := t.v.set ia true }) e a = ia from hla] at this
  exact this

/-! ## Linear insertion -/

/-- where an entry of the new array comes from -/
theorem linIns_old {n z x cap : Nat} (hnz : n ≤ z) (hz : z < cap) (hx : x < cap) (hn : x ≠ n) :
    ∃ y < cap, y ≠ z ∧ (y = x ∧ x < n ∨ y + 1 = x ∧ n < x ∧ x ≤ z ∨ y = x ∧ z < x) ∧
      ∀ {α : Type} (f : Nat → α) (a : α), linIns f n z a x = f y := by
  rcases Nat.lt_or_gt_of_ne hn with h | h
  · exact ⟨x, hx, by omega, Or.inl ⟨rfl, h⟩, fun f a => by rw [linIns, if_neg hn, if_neg (by omega)]⟩
  · by_cases h3 : x ≤ z
    · exact ⟨x - 1, by omega, by omega, Or.inr (Or.inl ⟨by omega, h, h3⟩), fun f a => by
        rw [linIns, if_neg hn, if_pos ⟨h, h3⟩]⟩
    · exact ⟨x, hx, by omega, Or.inr (Or.inr ⟨rfl, by omega⟩), fun f a => by rw [linIns, if_neg hn, if_neg (by omega)]⟩

theorem linIns_new {n z y cap : Nat} (hnz : n ≤ z) (hz : z < cap) (hy : y < cap) (hyz : y ≠ z) :
    ∃ x < cap, x ≠ n ∧ ∀ {α : Type} (f : Nat → α) (a : α), linIns f n z a x = f y := by
  by_cases h1 : y < n
  · exact ⟨y, hy, by omega, fun f a => by rw [linIns, if_neg (by omega), if_neg (by omega)]⟩
  · by_cases h2 : y < z
    · exact ⟨y + 1, by omega, by omega, fun f a => by rw [linIns, if_neg (by omega), if_pos (by omega)]; simp⟩
    · exact ⟨y, hy, by omega, fun f a => by rw [linIns, if_neg (by omega), if_neg (by omega)]⟩

/-- **Insertion keeps the invariant** and adds exactly the new entry. -/
theorem Inv.step (I : Inv t home) {t' : Tab} {ia nP zP q val : Nat} (hia : ia < t.cap)
    (hfull : t.size < t.cap)
    (hdata : ∀ e < t.cap, slot t e = none → ∃ n z, rel t.cap e ia ≤ n ∧ n ≤ z ∧ z < t.cap ∧ nP = lin t.cap e n ∧
      zP = lin t.cap e z ∧ slot t zP = none ∧
      (∀ y, rel t.cap e ia ≤ y → y < z → (slot t (lin t.cap e y)).isSome = true) ∧
      (∀ x < n, (slot t (lin t.cap e x)).isSome = true → rel t.cap e (home (lin t.cap e x)) ≤ rel t.cap e ia) ∧
      (∀ x, n ≤ x → x < t.cap → (slot t (lin t.cap e x)).isSome = true →
        rel t.cap e ia < rel t.cap e (home (lin t.cap e x))))
    (sz' : Sized t') (hlog : t'.log = t.log) (hsize : t'.size = t.size + 1)
    (hV : ∀ p < t.cap, t'.V p = if p = ia then true else t.V p)
    (hC : ∀ p < t.cap, t'.C p = circIns t.cap t.C nP zP (!t.V ia) p)
    (hS : ∀ p < t.cap, slot t' p = circIns t.cap (slot t) nP zP (some (q, val)) p)
    (hnew : ∀ p x, p < t.cap → slot t p = some (q, x) → home p ≠ ia) :
    Inv t' (circIns t.cap home nP zP ia) ∧
      (∀ h q' x, Has t' (circIns t.cap home nP zP ia) h q' x ↔ Has t home h q' x ∨ (h = ia ∧ q' = q ∧ x = val)) ∧
      nP < t.cap ∧ slot t' nP = some (q, val) ∧ circIns t.cap home nP zP ia nP = ia := by
  obtain ⟨e, he, hen⟩ := I.exists_empty hfull
  have hcap : t'.cap = t.cap := by simp only [Tab.cap, hlog]
  have hl : ∀ e y, lin t.cap e y < t.cap := fun e y => lin_lt _ (cap_pos t)
  set home' := circIns t.cap home nP zP ia with hh'
  -- usage of positions
  have used : ∀ p < t.cap, (slot t' p).isSome = true ↔ (slot t p).isSome = true ∨ p = zP := by
    obtain ⟨n, z, d1, d2, d3, d4, d5, d6, d7, d8, d9⟩ := hdata e he hen
    intro p hp
    obtain ⟨x, hx, rfl⟩ : ∃ x < t.cap, p = lin t.cap e x := ⟨rel t.cap e p, rel_lt _ (cap_pos t), (lin_rel he hp).symm⟩
    have key : lin t.cap e x = zP ↔ x = z := by
      rw [d5]; exact ⟨fun hc => lin_inj he hx d3 hc, fun hc => by rw [hc]⟩
    rw [hS _ hp, d4, d5, circIns_lin he _ _ d2 d3 hx, ← d5, key, linIns]
    by_cases h1 : x = n
    · rw [if_pos h1]
      simp only [Option.isSome_some, true_iff]
      by_cases h2 : x = z
      · exact Or.inr h2
      · exact Or.inl (d7 x (by omega) (by omega))
    · rw [if_neg h1]
      by_cases h2 : n < x ∧ x ≤ z
      · rw [if_pos h2]
        have hb := d7 (x - 1) (by omega) (by omega)
        simp only [hb, true_iff]
        by_cases h3 : x = z
        · exact Or.inr h3
        · exact Or.inl (d7 x (by omega) (by omega))
      · rw [if_neg h2]
        constructor
        · exact Or.inl
        · rintro (h | h)
          · exact h
          · omega
  -- where entries come from
  obtain ⟨n, z, d1, d2, d3, d4, d5, d6, d7, d8, d9⟩ := hdata e he hen
  have hzP : zP < t.cap := by rw [d5]; exact hl e z
  have hnP : nP < t.cap := by rw [d4]; exact hl e n
  have atn : slot t' nP = some (q, val) ∧ home' nP = ia := by
    have e1 := hS nP hnP
    have e2 : home' nP = circIns t.cap home nP zP ia nP := rfl
    rw [circIns, if_pos (by rw [Nat.add_sub_cancel_left, Nat.mod_self])] at e1 e2
    exact ⟨e1, e2⟩
  have oldp : ∀ p < t.cap, p ≠ nP → ∃ p1 < t.cap, p1 ≠ zP ∧ slot t' p = slot t p1 ∧ home' p = home p1 := by
    intro p hp hpn
    obtain ⟨x, hx, rfl⟩ : ∃ x < t.cap, p = lin t.cap e x := ⟨rel t.cap e p, rel_lt _ (cap_pos t), (lin_rel he hp).symm⟩
    have hxn : x ≠ n := by rintro rfl; exact hpn d4.symm
    obtain ⟨y, y1, y2, _, y4⟩ := linIns_old d2 d3 hx hxn
    refine ⟨lin t.cap e y, hl e y, ?_, ?_, ?_⟩
    · rw [d5]; intro hc; exact y2 (lin_inj he y1 d3 hc)
    · rw [hS _ hp, d4, d5, circIns_lin he _ _ d2 d3 hx, y4]
    · rw [hh', d4, d5, circIns_lin he _ _ d2 d3 hx, y4]
  have newp : ∀ p1 < t.cap, p1 ≠ zP → ∃ p < t.cap, p ≠ nP ∧ slot t' p = slot t p1 ∧ home' p = home p1 := by
    intro p hp hpn
    obtain ⟨y, hy, rfl⟩ : ∃ x < t.cap, p = lin t.cap e x := ⟨rel t.cap e p, rel_lt _ (cap_pos t), (lin_rel he hp).symm⟩
    have hyz : y ≠ z := by rintro rfl; exact hpn d5.symm
    obtain ⟨x, x1, x2, x3⟩ := linIns_new d2 d3 hy hyz
    refine ⟨lin t.cap e x, hl e x, ?_, ?_, ?_⟩
    · rw [d4]; intro hc; exact x2 (lin_inj he x1 (by omega) hc)
    · rw [hS _ (hl e x), d4, d5, circIns_lin he _ _ d2 d3 x1, x3]
    · rw [hh', d4, d5, circIns_lin he _ _ d2 d3 x1, x3]
  refine ⟨⟨sz', ?_, ?_, ?_, ?_⟩, ?_, hnP, atn.1, atn.2⟩
  · -- the linear invariant from every empty position
    intro e' he' hen'
    rw [hcap] at he'
    have hz' : e' ≠ zP := by
      rintro rfl
      have := (used e' he').mpr (Or.inr rfl)
      rw [hen'] at this; simp at this
    have hold : slot t e' = none := by
      by_contra hc
      have := (used e' he').mpr (Or.inl (Option.isSome_iff_ne_none.mpr hc))
      rw [hen'] at this; simp at this
    obtain ⟨n, z, d1, d2, d3, d4, d5, d6, d7, d8, d9⟩ := hdata e' he' hold
    have hzl : z < t.cap - 1 := by
      by_contra hc
      have : z = t.cap - 1 := by omega
      rw [this, lin_last he'] at d5
      exact hz' d5.symm
    have L := I.linv e' he' hold
    rw [hcap]
    have key : ∀ i j, i < t.cap → j < t.cap → (lin t.cap e' i = lin t.cap e' j ↔ i = j) :=
      fun i j hi hj => ⟨fun hc => lin_inj he' hi hj hc, fun hc => by rw [hc]⟩
    have hla : lin t.cap e' (rel t.cap e' ia) = ia := lin_rel he' hia
    have hac : rel t.cap e' ia < t.cap := rel_lt _ (cap_pos t)
    refine L.insert (a := rel t.cap e' ia) (n := n) (t := z) d1 d2 hzl d7 (by rw [← d5, d6]; simp) d8 d9 ?_ ?_ ?_ ?_
    · intro x hx
      rw [used _ (hl e' x), d5, key x z hx d3]
    · intro x hx ho
      simp only [hh']
      rw [d4, d5, circIns_lin he' _ _ d2 d3 hx]
      simp only [linIns]
      by_cases h1 : x = n
      · simp [h1]
      · rw [if_neg h1, if_neg h1]
        by_cases h2 : n < x ∧ x ≤ z
        · rw [if_pos h2, if_pos h2]
        · rw [if_neg h2, if_neg h2]
    · intro x hx
      rw [hV _ (hl e' x)]
      have : lin t.cap e' x = ia ↔ x = rel t.cap e' ia := by
        rw [← key x _ hx hac, hla]
      simp only [this]
    · intro x hx
      rw [hC _ (hl e' x), d4, d5, circIns_lin he' _ _ d2 d3 hx, hla]
  · intro p hp ho
    rw [hcap] at hp ⊢
    by_cases hpn : p = nP
    · rw [hpn, atn.2]; exact hia
    · obtain ⟨p1, h1, h2, h3, h4⟩ := oldp p hp hpn
      rw [h4]; rw [h3] at ho; exact I.home_lt p1 h1 ho
  · intro p p' q1 x x' hp hp' h1 h2 h3
    rw [hcap] at hp hp'
    obtain ⟨u, hu, rfl⟩ : ∃ x < t.cap, p = lin t.cap e x := ⟨rel t.cap e p, rel_lt _ (cap_pos t), (lin_rel he hp).symm⟩
    obtain ⟨u', hu', rfl⟩ : ∃ x < t.cap, p' = lin t.cap e x := ⟨rel t.cap e p', rel_lt _ (cap_pos t), (lin_rel he hp').symm⟩
    have hcase : ∀ u < t.cap, ∀ x, slot t' (lin t.cap e u) = some (q1, x) →
        (u = n ∧ q1 = q ∧ home' (lin t.cap e u) = ia) ∨ ∃ y < t.cap, slot t (lin t.cap e y) = some (q1, x) ∧
          home' (lin t.cap e u) = home (lin t.cap e y) ∧ (y = u ∧ u < n ∨ y + 1 = u ∧ n < u ∧ u ≤ z ∨ y = u ∧ z < u) := by
      intro u hu x hs
      by_cases hun : u = n
      · left
        subst hun
        rw [← d4] at hs ⊢
        rw [atn.1] at hs
        simp only [Option.some.injEq, Prod.mk.injEq] at hs
        exact ⟨rfl, hs.1.symm, atn.2⟩
      · right
        obtain ⟨y, y1, y2, y3, y4⟩ := linIns_old d2 d3 hu hun
        refine ⟨y, y1, ?_, ?_, y3⟩
        · rw [hS _ (hl e u), d4, d5, circIns_lin he _ _ d2 d3 hu, y4] at hs; exact hs
        · rw [hh', d4, d5, circIns_lin he _ _ d2 d3 hu, y4]
    rcases hcase u hu x h1 with ⟨a1, a2, a3⟩ | ⟨y, a1, a2, a3, a4⟩ <;>
      rcases hcase u' hu' x' h2 with ⟨b1, b2, b3⟩ | ⟨y', b1, b2, b3, b4⟩
    · rw [a1, b1]
    · exfalso
      subst a2
      exact hnew _ _ (hl e y') b2 (by rw [← b3, ← h3, a3])
    · exfalso
      subst b2
      exact hnew _ _ (hl e y) a2 (by rw [← a3, h3, b3])
    · have := I.inj _ _ q1 x x' (hl e y) (hl e y') a2 b2 (by rw [← a3, ← b3, h3])
      have := lin_inj he a1 b1 this
      congr 1
      omega
  · rw [hsize, ← I.card, hcap]
    have : (Finset.range t.cap).filter (fun p => (slot t' p).isSome = true) =
        Insert.insert zP ((Finset.range t.cap).filter fun p => (slot t p).isSome = true) := by
      ext p
      simp only [Finset.mem_filter, Finset.mem_range, Finset.mem_insert]
      constructor
      · rintro ⟨h1, h2⟩
        rcases (used p h1).mp h2 with h | h
        · exact Or.inr ⟨h1, h⟩
        · exact Or.inl h
      · rintro (h | ⟨h1, h2⟩)
        · subst h; exact ⟨hzP, (used _ hzP).mpr (Or.inr rfl)⟩
        · exact ⟨h1, (used p h1).mpr (Or.inl h2)⟩
    rw [this, Finset.card_insert_of_notMem]
    simp [d6]
  · intro h q' x
    constructor
    · rintro ⟨p, hp, h1, h2⟩
      rw [hcap] at hp
      by_cases hpn : p = nP
      · right
        rw [hpn] at h1 h2
        rw [atn.1] at h1
        simp only [Option.some.injEq, Prod.mk.injEq] at h1
        exact ⟨by rw [← h2]; exact atn.2, h1.1.symm, h1.2.symm⟩
      · left
        obtain ⟨p1, k1, k2, k3, k4⟩ := oldp p hp hpn
        exact ⟨p1, k1, by rw [← k3]; exact h1, by rw [← k4]; exact h2⟩
    · rintro (⟨p1, hp, h1, h2⟩ | ⟨h1, h2, h3⟩)
      · have : p1 ≠ zP := by
          rintro rfl
          rw [d6] at h1; simp at h1
        obtain ⟨p, k1, k2, k3, k4⟩ := newp p1 hp this
        exact ⟨p, by rw [hcap]; exact k1, by rw [k3]; exact h1, by rw [k4]; exact h2⟩
      · subst h1 h2 h3
        exact ⟨nP, by rw [hcap]; exact hnP, atn.1, atn.2⟩

end Tdc.CSH
