import Verif.Lemmas.CompactHash

/-!
# Compact hash table: `insert_handler`
-/

namespace Tdc.CSH

variable {t : Tab} {home : Nat → Nat}

/-- The one situation in which an insertion goes wrong: the last position of the table is in use and the first one is
not. -/
def Stuck (t : Tab) : Prop := (slot t (t.cap - 1)).isSome = true ∧ slot t 0 = none

theorem Found.count_le {e ia s n z : Nat} (I : Inv t home) (he : e < t.cap) (F : Found t home e ia s n z) :
    z - n ≤ t.size := by
  rw [← I.card, ← Nat.card_Ico]
  refine Finset.card_le_card_of_injOn (fun x => lin t.cap e x) ?_ ?_
  · intro x hx
    rw [Finset.mem_coe, Finset.mem_Ico] at hx
    simp only [Finset.coe_filter, Finset.mem_range, Set.mem_setOf_eq]
    exact ⟨lin_lt _ (cap_pos t), F.occ x (by have := F.an; omega) hx.2⟩
  · intro x hx y hy hxy
    rw [Finset.mem_coe, Finset.mem_Ico] at hx hy
    have := F.zc
    exact lin_inj he (by omega) (by omega) hxy

/-- `insert_after` at the place found for the key. -/
theorem Inv.insertMid (I : Inv t home) {e ia s n z : Nat} (he : e < t.cap) (hen : slot t e = none) (hia : ia < t.cap)
    (F : Found t home e ia s n z) (q val : Nat) (hroom : t.size + 1 < t.cap / 2) :
    (insertAfter { t with v := t.v.set ia true } (lin t.cap e n) (lin t.cap e z) q val = .error .ub ∧ Stuck t) ∨
    ∃ t1 hd, insertAfter { t with v := t.v.set ia true } (lin t.cap e n) (lin t.cap e z) q val = .ok (t1, hd) ∧
      Sized t1 ∧ t1.log = t.log ∧ t1.size = t.size ∧ t1.width = t.width ∧
      (∀ p, t1.V p = if p = ia then true else t.V p) ∧
      (∀ p < t.cap, t1.C p = circIns t.cap t.C (lin t.cap e n) (lin t.cap e z) false p) ∧
      (∀ p < t.cap, slot t1 p = circIns t.cap (slot t) (lin t.cap e n) (lin t.cap e z) (some (q, val)) p) ∧
      (7 ≤ t.log → hd = loc t1 (lin t.cap e n)) := by
  have L := I.linv e he hen
  have hcz : t.C (lin t.cap e z) = false := by
    by_contra hc
    have := (L.c_iff z F.zc).mp (by simpa using hc)
    rw [F.zn] at this; simp at this
  have szv := I.sz.setV ia true
  obtain ⟨hbad, hgood⟩ := insertAfter_spec (t := { t with v := t.v.set ia true }) szv (e := e) he (n := n) (z := z) q val
    F.nz F.zc F.zn hcz (fun y h1 h2 => F.occ y (Nat.le_trans F.an h1) h2)
  have hl : ∀ e y, lin t.cap e y < t.cap := fun e y => lin_lt _ (cap_pos t)
  by_cases hcase : n < z ∧ lin t.cap e z = 0
  · left
    refine ⟨hbad hcase.1 hcase.2, ?_, by rw [← hcase.2]; exact F.zn⟩
    have h1 := F.occ (z - 1) (by have := F.an; omega) (by omega)
    have h2 := lin_prev (cap := t.cap) he (x := z - 1) (by have := F.zc; omega)
    rw [show z - 1 + 1 = z by omega, hcase.2] at h2
    have h3 := cap_pos t
    rw [show 0 + t.cap - 1 = t.cap - 1 by omega, Nat.mod_eq_of_lt (by omega)] at h2
    rw [h2]; exact h1
  · right
    obtain ⟨t1, hd, h1, h2, h3, h4, h5, h6, h7, h8, h9⟩ := hgood (by
      by_cases h : n = z
      · exact Or.inl h
      · right
        intro hc
        exact hcase ⟨by have := F.nz; omega, hc⟩)
    refine ⟨t1, hd, h1, h2, h3, h4, h5, ?_, ?_, ?_, ?_⟩
    · intro p
      rw [← V_set I.sz true hia p, Tab.V, h6]; rfl
    · intro p hp
      obtain ⟨x, hx, rfl⟩ : ∃ x < t.cap, p = lin t.cap e x := ⟨rel t.cap e p, rel_lt _ (cap_pos t), (lin_rel he hp).symm⟩
      rw [circIns_lin he _ _ F.nz F.zc hx]
      exact h7 x hx
    · intro p hp
      obtain ⟨x, hx, rfl⟩ : ∃ x < t.cap, p = lin t.cap e x := ⟨rel t.cap e p, rel_lt _ (cap_pos t), (lin_rel he hp).symm⟩
      rw [circIns_lin he _ _ F.nz F.zc hx]
      exact h8 x hx
    · intro hlog
      refine h9 ?_
      by_cases hnz : n = z
      · exact Or.inl hnz
      · right
        by_contra hc
        push Not at hc
        obtain ⟨c1, c2⟩ := hc
        change lin t.cap e z ≤ lin t.cap e n at c1
        change lin t.cap e n / 64 = lin t.cap e z / 64 at c2
        have hle := F.count_le I he
        have h128 : 128 ≤ t.cap := by
          rw [Tab.cap]; exact (by decide : 128 ≤ 2 ^ 7).trans (Nat.pow_le_pow_right (by decide) hlog)
        have hnz' := F.nz
        have hzc := F.zc
        have hsub := lin_sub he hzc (show n < t.cap by omega)
        rw [show z + t.cap - n = z - n + t.cap by omega, Nat.add_mod_right, Nat.mod_eq_of_lt (show z - n < t.cap by omega)] at hsub
        have hne : lin t.cap e z ≠ lin t.cap e n := fun hc => hnz (lin_inj he hzc (by omega) hc).symm
        have := hl e n
        rw [Nat.mod_eq_of_lt (by omega)] at hsub
        omega

theorem circIns_self {α : Type} (cap : Nat) (f : Nat → α) (n : Nat) (a : α) (hn : n < cap) {p : Nat} (hp : p < cap) :
    circIns cap f n n a p = if p = n then a else f p := by
  rw [circIns_lt f a (Nat.le_refl _) hn hp]
  by_cases h : p = n
  · simp [h]
  · rw [if_neg h, if_neg h, if_neg (by omega)]

theorem decompose_lt (t : Tab) (key : Nat) : (t.decompose key).1 < t.cap := Nat.mod_lt _ (cap_pos t)

/-- **`insert_handler`** without the growing step. -/
theorem Inv.insertCore (I : Inv t home) (key val : Nat) (hroom : t.size + 1 < t.cap / 2) :
    (∃ p x, p < t.cap ∧ slot t p = some ((t.decompose key).2, x) ∧ home p = (t.decompose key).1 ∧
      insertCore t key val = .ok (t, loc t p, true)) ∨
    ((∀ p x, p < t.cap → slot t p = some ((t.decompose key).2, x) → home p ≠ (t.decompose key).1) ∧
      ((CSH.insertCore t key val = .error .ub ∧ Stuck t) ∨
        ∃ t' hd home', CSH.insertCore t key val = .ok (t', hd, false) ∧ Inv t' home' ∧ t'.size = t.size + 1 ∧
          t'.log = t.log ∧ t'.width = t.width ∧
          (∀ h q x, Has t' home' h q x ↔
            Has t home h q x ∨ (h = (t.decompose key).1 ∧ q = (t.decompose key).2 ∧ x = val)) ∧
          ∃ p < t.cap, slot t' p = some ((t.decompose key).2, val) ∧ home' p = (t.decompose key).1 ∧
            (7 ≤ t.log → hd = loc t' p))) := by
  have hia := decompose_lt t key
  generalize hq : (t.decompose key).2 = q
  generalize hiae : (t.decompose key).1 = ia at hia ⊢
  have hsz : t.size < t.cap := by omega
  obtain ⟨e, he, hen⟩ := I.exists_empty hsz
  have L := I.linv e he hen
  by_cases hio : (slot t ia).isSome = true
  · -- the home address is in use
    obtain ⟨s, n, z, F, hsg⟩ := I.search_at he hen hia hio
    -- the search sees the same from every empty position
    have hdata : ∀ e' < t.cap, slot t e' = none → ∃ n' z', rel t.cap e' ia ≤ n' ∧ n' ≤ z' ∧ z' < t.cap ∧
        lin t.cap e n = lin t.cap e' n' ∧ lin t.cap e z = lin t.cap e' z' ∧ slot t (lin t.cap e z) = none ∧
        (∀ y, rel t.cap e' ia ≤ y → y < z' → (slot t (lin t.cap e' y)).isSome = true) ∧
        (∀ x < n', (slot t (lin t.cap e' x)).isSome = true → rel t.cap e' (home (lin t.cap e' x)) ≤ rel t.cap e' ia) ∧
        (∀ x, n' ≤ x → x < t.cap → (slot t (lin t.cap e' x)).isSome = true →
          rel t.cap e' ia < rel t.cap e' (home (lin t.cap e' x))) := by
      intro e' he' hen'
      obtain ⟨s', n', z', F', hsg'⟩ := I.search_at he' hen' hia hio
      rw [hsg] at hsg'
      simp only [Except.ok.injEq, Prod.mk.injEq] at hsg'
      exact ⟨n', z', F'.an, F'.nz, F'.zc, hsg'.2.1, hsg'.2.2, F.zn, F'.occ, F'.low, F'.high⟩
    have hstart : CSH.insertCore t key val = (vget t.v ia).bind fun g =>
        if g then
          (searchGroup t ia).bind fun r =>
          (searchIn t r.2.1 q (t.cap + 1) r.1).bind fun p =>
          match p with
          | some h => .ok (t, h, true)
          | none => (insertAfter t r.2.1 r.2.2 q val).bind fun r => .ok ({ r.1 with size := r.1.size + 1 }, r.2, false)
        else
          (CSH.setV t ia true).bind fun t =>
          (searchGroup t ia).bind fun r =>
          (insertAfter t r.2.1 r.2.2 q val).bind fun r' =>
          (CSH.setC r'.1 r.2.1 true).bind fun t => .ok ({ t with size := t.size + 1 }, r'.2, false) := by
      rw [CSH.insertCore]
      simp only [hq, hiae]
      rw [sexists_ok I.sz.wf (I.sz.bkt hia), hio, bind_ok]
      rfl
    rw [vget_V I.sz hia, bind_ok] at hstart
    by_cases hv : t.V ia = true
    · -- there is a group
      obtain ⟨hsn, hgrp⟩ := F.grp hv
      rw [hv] at hstart
      simp only [if_true] at hstart
      rw [setV_self I.sz hia hv] at hsg
      rw [hsg, bind_ok] at hstart
      simp only at hstart
      have hzc := F.zc
      have hnz := F.nz
      rcases searchIn_spec I.sz he q n (by omega) (n - s) (t.cap + 1) s (by omega) (by omega)
        (fun y h1 h2 => ((hgrp y (by omega)).mpr ⟨h1, h2⟩).1) with ⟨y, x, y1, y2, y3, y4⟩ | ⟨y1, y2⟩
      · left
        rw [y4, bind_ok] at hstart
        exact ⟨lin t.cap e y, x, lin_lt _ (cap_pos t), y3, ((hgrp y (by omega)).mpr ⟨y1, y2⟩).2, hstart⟩
      · right
        have hnew : ∀ p x, p < t.cap → slot t p = some (q, x) → home p ≠ ia := by
          intro p x hp hs hh
          obtain ⟨y, hy, rfl⟩ : ∃ x < t.cap, p = lin t.cap e x := ⟨rel t.cap e p, rel_lt _ (cap_pos t), (lin_rel he hp).symm⟩
          have := (hgrp y hy).mp ⟨by rw [hs]; rfl, hh⟩
          exact y1 y x this.1 this.2 hs
        refine ⟨hnew, ?_⟩
        rw [y2, bind_ok] at hstart
        simp only at hstart
        have hmid := I.insertMid he hen hia F q val hroom
        rw [setV_self I.sz hia hv] at hmid
        rcases hmid with ⟨m1, m2⟩ | ⟨t1, hd, m1, m2, m3, m4, m5, m6, m7, m8, m9⟩
        · left
          rw [m1, bind_error] at hstart
          exact ⟨hstart, m2⟩
        · right
          rw [m1, bind_ok] at hstart
          simp only at hstart
          have hstep := I.step (t' := { t1 with size := t1.size + 1 }) (ia := ia) (nP := lin t.cap e n) (zP := lin t.cap e z)
            (q := q) (val := val) hia hsz hdata ⟨⟨m2.wf.nb, m2.wf.elems⟩, m2.vlen, m2.clen, m2.small⟩ m3 (by simp [m4])
            (fun p _ => m6 p) (fun p hp => by rw [hv]; exact m7 p hp) m8 hnew
          obtain ⟨k1, k2, k3, k4, k5⟩ := hstep
          exact ⟨_, hd, _, hstart, k1, by simp [m4], m3, m5, k2, _, k3, k4, k5, m9⟩
    · -- a new group
      have hv' : t.V ia = false := by simpa using hv
      right
      have hnew : ∀ p x, p < t.cap → slot t p = some (q, x) → home p ≠ ia := by
        intro p x hp hs hh
        obtain ⟨y, hy, rfl⟩ : ∃ x < t.cap, p = lin t.cap e x := ⟨rel t.cap e p, rel_lt _ (cap_pos t), (lin_rel he hp).symm⟩
        have := (L.v_iff (rel t.cap e ia) (rel_lt _ (cap_pos t))).mpr ⟨y, hy, by rw [hs]; rfl, by rw [hh]⟩
        rw [lin_rel he hia, hv'] at this
        simp at this
      refine ⟨hnew, ?_⟩
      rw [hv'] at hstart
      simp only [Bool.false_eq_true, if_false] at hstart
      rw [setV_ok I.sz true hia, bind_ok, hsg, bind_ok] at hstart
      simp only at hstart
      rcases I.insertMid he hen hia F q val hroom with ⟨m1, m2⟩ | ⟨t1, hd, m1, m2, m3, m4, m5, m6, m7, m8, m9⟩
      · left
        rw [m1, bind_error] at hstart
        exact ⟨hstart, m2⟩
      · right
        have hcap1 : t1.cap = t.cap := by simp only [Tab.cap, m3]
        have hn' : lin t.cap e n < t1.cap := by rw [hcap1]; exact lin_lt _ (cap_pos t)
        rw [m1, bind_ok] at hstart
        simp only at hstart
        rw [setC_ok m2 true hn', bind_ok] at hstart
        have hzc := F.zc
        have hnz := F.nz
        have hstep := I.step (t' := { t1 with c := t1.c.set (lin t.cap e n) true, size := t1.size + 1 }) (ia := ia)
            (nP := lin t.cap e n) (zP := lin t.cap e z)
            (q := q) (val := val) hia hsz hdata
            ⟨⟨m2.wf.nb, m2.wf.elems⟩, m2.vlen, (List.length_set ..).trans m2.clen, m2.small⟩ m3 (by simp [m4])
            (fun p _ => m6 p) (fun p hp => by
              have e1 : Tab.C { t1 with c := t1.c.set (lin t.cap e n) true, size := t1.size + 1 } p =
                Tab.C { t1 with c := t1.c.set (lin t.cap e n) true } p := rfl
              rw [e1, C_set m2 true hn', m7 p hp, hv']
              obtain ⟨y, hy, rfl⟩ : ∃ x < t.cap, p = lin t.cap e x := ⟨rel t.cap e p, rel_lt _ (cap_pos t), (lin_rel he hp).symm⟩
              rw [circIns_lin he _ _ hnz hzc hy, circIns_lin he _ _ hnz hzc hy]
              have key : lin t.cap e y = lin t.cap e n ↔ y = n := ⟨fun hc => lin_inj he hy (by omega) hc, fun hc => by rw [hc]⟩
              simp only [key, linIns, Bool.not_false]
              by_cases hyn : y = n
              · simp [hyn]
              · simp [hyn]) m8 hnew
        obtain ⟨k1, k2, k3, k4, k5⟩ := hstep
        exact ⟨_, hd, _, hstart, k1, by simp [m4], m3, m5, k2, _, k3, k4, k5, m9⟩
  · -- the home address is free
    right
    have hin : slot t ia = none := by simpa using hio
    have hva : t.V ia = false := by
      by_contra hc
      obtain ⟨y, y1, y2, y3⟩ := (L.v_iff (rel t.cap e ia) (rel_lt _ (cap_pos t))).mp
        (by rw [lin_rel he hia]; simpa using hc)
      have h1 := L.le y y1 y2
      have := L.full y y1 y2 (rel t.cap e ia) (by omega) (by omega)
      rw [lin_rel he hia, hin] at this; simp at this
    have hnew : ∀ p x, p < t.cap → slot t p = some (q, x) → home p ≠ ia := by
      intro p x hp hs hh
      obtain ⟨y, hy, rfl⟩ : ∃ x < t.cap, p = lin t.cap e x := ⟨rel t.cap e p, rel_lt _ (cap_pos t), (lin_rel he hp).symm⟩
      have := (L.v_iff (rel t.cap e ia) (rel_lt _ (cap_pos t))).mpr ⟨y, hy, by rw [hs]; rfl, by rw [hh]⟩
      rw [lin_rel he hia, hva] at this
      simp at this
    refine ⟨hnew, Or.inr ?_⟩
    obtain ⟨t1, h1, wf1, a1, a2, a3, a4, a5, sl, lo⟩ := setAtEmpty_spec I.sz.wf q val (I.sz.bkt hia) hin
    have hcap1 : t1.cap = t.cap := by simp only [Tab.cap, a1]
    have sz1 : Sized t1 := ⟨wf1, by rw [a4, hcap1]; exact I.sz.vlen, by rw [a5, hcap1]; exact I.sz.clen,
      by rw [a1]; exact I.sz.small⟩
    have sz2 := sz1.setV ia true
    have hia1 : ia < t1.cap := by rw [hcap1]; exact hia
    have hstart : CSH.insertCore t key val = .ok ({ t1 with v := t1.v.set ia true, c := t1.c.set ia true, size := t1.size + 1 }, loc t1 ia, false) := by
      rw [CSH.insertCore]
      simp only [hq, hiae]
      rw [sexists_ok I.sz.wf (I.sz.bkt hia), hin, bind_ok]
      simp only [Option.isSome_none, Bool.not_false, if_true]
      rw [h1, bind_ok]
      simp only
      rw [setV_ok sz1 true hia1, bind_ok, setC_ok sz2 true hia1, bind_ok]
    have hstep := I.step (t' := { t1 with v := t1.v.set ia true, c := t1.c.set ia true, size := t1.size + 1 }) (ia := ia)
      (nP := ia) (zP := ia) (q := q) (val := val) hia hsz (by
        intro e' he' hen'
        have L' := I.linv e' he' hen'
        have hac : rel t.cap e' ia < t.cap := rel_lt _ (cap_pos t)
        refine ⟨rel t.cap e' ia, rel t.cap e' ia, Nat.le_refl _, Nat.le_refl _, hac, (lin_rel he' hia).symm,
          (lin_rel he' hia).symm, hin, fun y h1 h2 => by omega, fun x hx ho => ?_, fun x hx hxc ho => ?_⟩
        · have := L'.le x (by omega) ho
          omega
        · by_contra hc
          have := L'.full x hxc ho (rel t.cap e' ia) (by omega) hx
          rw [lin_rel he' hia, hin] at this; simp at this)
      ⟨⟨wf1.nb, wf1.elems⟩, (List.length_set ..).trans sz1.vlen, (List.length_set ..).trans sz1.clen, sz1.small⟩ a1
      (by simp [a2])
      (fun p hp => by
        have e1 : Tab.V { t1 with v := t1.v.set ia true, c := t1.c.set ia true, size := t1.size + 1 } p =
          Tab.V { t1 with v := t1.v.set ia true } p := rfl
        rw [e1, V_set sz1 true hia1]
        have e2 : t1.V p = t.V p := by rw [Tab.V, a4]; rfl
        rw [e2])
      (fun p hp => by
        have e1 : Tab.C { t1 with v := t1.v.set ia true, c := t1.c.set ia true, size := t1.size + 1 } p =
          Tab.C { t1 with c := t1.c.set ia true } p := rfl
        rw [e1, C_set sz1 true hia1, circIns_self _ _ _ _ hia hp, hva]
        have e2 : t1.C p = t.C p := by rw [Tab.C, a5]; rfl
        rw [e2]; rfl)
      (fun p hp => by
        rw [circIns_self _ _ _ _ hia hp]
        exact sl p) hnew
    obtain ⟨k1, k2, k3, k4, k5⟩ := hstep
    exact ⟨_, _, _, hstart, k1, by simp [a2], a1, a3, k2, _, k3, k4, k5, fun _ => rfl⟩

end Tdc.CSH
