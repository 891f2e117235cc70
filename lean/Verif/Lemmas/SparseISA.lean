import Verif.Model.SparseISA
import Verif.Props.Rank
import Verif.Lemmas.TextDS
import Mathlib.Dynamics.PeriodicPts.Defs
import Mathlib.Data.Finset.Card
import Mathlib.Data.Fintype.Card
import Mathlib.Tactic.ByContra

namespace Tdc
namespace RS

theorem packWord_testBit (l : List Bool) : ∀ i, (packWord l).testBit i = l.getD i false := by
  induction l with
  | nil => intro i; simp [packWord]
  | cons b l ih =>
    intro i
    have h2 : packWord (b :: l) = 2 * packWord l + b.toNat := by rw [packWord]; omega
    cases i with
    | zero =>
      rw [Nat.testBit_zero, h2]
      cases b <;> simp
    | succ i =>
      rw [Nat.testBit_succ, h2]
      have : (2 * packWord l + b.toNat) / 2 = packWord l := by cases b <;> simp <;> omega
      rw [this, ih]; simp

theorem packWord_lt (l : List Bool) : packWord l < 2 ^ l.length := by
  induction l with
  | nil => simp [packWord]
  | cons b l ih =>
    rw [packWord, List.length_cons, Nat.pow_succ]
    have : b.toNat ≤ 1 := by cases b <;> simp
    omega

theorem ofBits_bit (l : List Bool) (i : Nat) : ((BV.ofBits l).data.getD (i / 64) 0).testBit (i % 64) = l.getD i false := by
  by_cases hi : i < l.length
  · have h1 : i / 64 < idivCeil l.length 64 := by rw [idivCeil64]; omega
    have h2 : (BV.ofBits l).data.getD (i / 64) 0 = packWord ((l.drop (64 * (i / 64))).take 64) := by
      simp [BV.ofBits, List.getD_eq_getElem?_getD, h1]
    rw [h2, packWord_testBit, List.getD_eq_getElem?_getD, List.getD_eq_getElem?_getD, List.getElem?_take_of_lt (by omega), List.getElem?_drop,
      show 64 * (i / 64) + i % 64 = i by omega]
  · have h0 : l.getD i false = false := by
      rw [List.getD_eq_getElem?_getD, List.getElem?_eq_none (by omega)]; rfl
    rw [h0]
    by_cases h1 : i / 64 < idivCeil l.length 64
    · have h2 : (BV.ofBits l).data.getD (i / 64) 0 = packWord ((l.drop (64 * (i / 64))).take 64) := by
        simp [BV.ofBits, List.getD_eq_getElem?_getD, h1]
      rw [h2, packWord_testBit, List.getD_eq_getElem?_getD, List.getElem?_take_of_lt (by omega), List.getElem?_drop,
        show 64 * (i / 64) + i % 64 = i by omega, List.getElem?_eq_none (by omega)]; rfl
    · have h2 : (BV.ofBits l).data.getD (i / 64) 0 = 0 := by
        rw [List.getD_eq_getElem?_getD, List.getElem?_eq_none (by simp [BV.ofBits]; omega)]; rfl
      rw [h2]; simp

theorem ofBits_bits (l : List Bool) : (BV.ofBits l).bits = l := by
  apply List.ext_getElem?
  intro i
  simp only [BV.bits, List.getElem?_map]
  by_cases hi : i < l.length
  · rw [List.getElem?_range (by simpa [BV.ofBits] using hi)]
    show some (((BV.ofBits l).data.getD (i / 64) 0).testBit (i % 64)) = _
    rw [ofBits_bit, List.getD_eq_getElem?_getD, List.getElem?_eq_getElem hi]; rfl
  · rw [List.getElem?_eq_none (by simpa [BV.ofBits] using Nat.le_of_not_lt hi), List.getElem?_eq_none (by omega)]; rfl

theorem ofBits_wf (l : List Bool) (h : l.length < 2 ^ 64) : (BV.ofBits l).WF := by
  refine ⟨by simp [BV.ofBits], ?_, h⟩
  intro v hv
  simp only [BV.ofBits, List.mem_map] at hv
  obtain ⟨j, -, rfl⟩ := hv
  refine Nat.lt_of_lt_of_le (packWord_lt _) (Nat.pow_le_pow_right (by decide) ?_)
  simp only [List.length_take]; omega

theorem ofBits_padding (l : List Bool) : padding true (BV.ofBits l) = 0 := by
  rw [padding, List.count_eq_zero]
  intro hm
  simp only [List.mem_map] at hm
  obtain ⟨i, -, hi⟩ := hm
  rw [ofBits_bit] at hi
  have : l.getD ((BV.ofBits l).n + i) false = false := by
    rw [List.getD_eq_getElem?_getD, List.getElem?_eq_none (by simp [BV.ofBits])]; rfl
  rw [this] at hi
  exact absurd hi (by decide)

end RS

namespace SI
open RS Function

/-- successor on the cycles -/
def nx (sa : List Nat) (x : Nat) : Nat := sa.getD x x

/-- a permutation of `0..n-1` as a list -/
structure IsPerm (sa : List Nat) : Prop where
  nodup : sa.Nodup
  lt : ∀ s ∈ sa, s < sa.length

theorem nx_get {sa : List Nat} {x : Nat} (hx : x < sa.length) : sa[x]? = some (nx sa x) := by
  rw [nx, List.getD_eq_getElem?_getD, List.getElem?_eq_getElem hx]; rfl

theorem nx_ge {sa : List Nat} {x : Nat} (hx : ¬ x < sa.length) : nx sa x = x := by
  rw [nx, List.getD_eq_getElem?_getD, List.getElem?_eq_none (by omega)]; rfl

theorem IsPerm.nx_lt {sa : List Nat} (h : IsPerm sa) {x : Nat} (hx : x < sa.length) : nx sa x < sa.length :=
  h.lt _ (List.mem_of_getElem? (nx_get hx))

theorem IsPerm.inj {sa : List Nat} (h : IsPerm sa) : Injective (nx sa) := by
  intro a b hab
  by_cases ha : a < sa.length <;> by_cases hb : b < sa.length
  · have h1 := nx_get ha
    have h2 := nx_get hb
    rw [hab] at h1
    obtain ⟨_, e1⟩ := List.getElem?_eq_some_iff.mp h1
    obtain ⟨_, e2⟩ := List.getElem?_eq_some_iff.mp h2
    exact (List.Nodup.getElem_inj_iff h.nodup).mp (e1.trans e2.symm)
  · have := h.nx_lt ha
    rw [hab, nx_ge hb] at this
    exact absurd this hb
  · have := h.nx_lt hb
    rw [← hab, nx_ge ha] at this
    exact absurd this ha
  · rwa [nx_ge ha, nx_ge hb] at hab

theorem IsPerm.iter_lt {sa : List Nat} (h : IsPerm sa) {x : Nat} (hx : x < sa.length) : ∀ m, (nx sa)^[m] x < sa.length
  | 0 => hx
  | m + 1 => by rw [iterate_succ_apply']; exact h.nx_lt (h.iter_lt hx m)

/-- cycle length -/
noncomputable def cl (sa : List Nat) (x : Nat) : Nat := minimalPeriod (nx sa) x

theorem IsPerm.period {sa : List Nat} (h : IsPerm sa) {x : Nat} (hx : x < sa.length) : 0 < cl sa x ∧ cl sa x ≤ sa.length := by
  have key : ∃ a ∈ Finset.range (sa.length + 1), ∃ b ∈ Finset.range (sa.length + 1), a ≠ b ∧ (nx sa)^[a] x = (nx sa)^[b] x :=
    Finset.exists_ne_map_eq_of_card_lt_of_maps_to (t := Finset.range sa.length) (by simp)
      (fun m _ => by simpa using h.iter_lt hx m)
  have : ∃ m, 0 < m ∧ m ≤ sa.length ∧ IsPeriodicPt (nx sa) m x := by
    obtain ⟨a, ha, b, hb, hne, he⟩ := key
    simp only [Finset.mem_range] at ha hb
    have aux : ∀ {a b : Nat}, a < b → (nx sa)^[a] x = (nx sa)^[b] x → IsPeriodicPt (nx sa) (b - a) x := by
      intro a b hab he
      have : (nx sa)^[b] x = (nx sa)^[a] ((nx sa)^[b - a] x) := by rw [← iterate_add_apply]; congr 2; omega
      exact (h.inj.iterate a (he.trans this)).symm
    rcases Nat.lt_or_gt_of_ne hne with hl | hg
    · exact ⟨b - a, by omega, by omega, aux hl he⟩
    · exact ⟨a - b, by omega, by omega, aux hg he.symm⟩
  obtain ⟨m, h1, h2, h3⟩ := this
  exact ⟨h3.minimalPeriod_pos h1, Nat.le_trans (h3.minimalPeriod_le h1) h2⟩

theorem iter_cl (sa : List Nat) (x : Nat) : (nx sa)^[cl sa x] x = x := iterate_minimalPeriod

theorem iter_inj {sa : List Nat} {x a b : Nat} (ha : a < cl sa x) (hb : b < cl sa x) (h : (nx sa)^[a] x = (nx sa)^[b] x) : a = b :=
  (iterate_injOn_Iio_minimalPeriod (f := nx sa) (x := x)) ha hb h

/-- `x` is at offset `d` of the cycle with smallest element `r` -/
structure Loc (sa : List Nat) (r d x : Nat) : Prop where
  leader : ∀ m, r ≤ (nx sa)^[m] r
  lt : r < sa.length
  off : d < cl sa r
  eq : x = (nx sa)^[d] r

theorem back {sa : List Nat} (r d : Nat) (hd : d ≤ cl sa r) : (nx sa)^[cl sa r - d] ((nx sa)^[d] r) = r := by
  rw [← iterate_add_apply, show cl sa r - d + d = cl sa r by omega, iter_cl]

theorem exists_loc {sa : List Nat} (h : IsPerm sa) {x : Nat} (hx : x < sa.length) : ∃ r d, Loc sa r d x ∧ r ≤ x := by
  classical
  have hp : ∃ y, ∃ m, y = (nx sa)^[m] x := ⟨x, 0, rfl⟩
  let r := Nat.find hp
  obtain ⟨m, hm⟩ : ∃ m, r = (nx sa)^[m] x := Nat.find_spec hp
  have hr : r < sa.length := hm ▸ h.iter_lt hx m
  have hper := h.period hr
  have hle : r ≤ x := Nat.find_min' hp ⟨0, rfl⟩
  have hlead : ∀ k, r ≤ (nx sa)^[k] r := by
    intro k
    refine Nat.find_min' hp ⟨k + m, ?_⟩
    rw [iterate_add_apply, ← hm]
  -- x is an iterate of r
  have hx' : ∃ k, x = (nx sa)^[k] r := by
    have hpx := h.period hx
    refine ⟨cl sa x * (m + 1) - m, ?_⟩
    rw [hm, ← iterate_add_apply]
    have hge : m + 1 ≤ cl sa x * (m + 1) := Nat.le_mul_of_pos_left _ hpx.1
    rw [show cl sa x * (m + 1) - m + m = cl sa x * (m + 1) by omega]
    exact ((isPeriodicPt_minimalPeriod (nx sa) x).mul_const (m + 1)).symm
  obtain ⟨k, hk⟩ := hx'
  refine ⟨r, k % cl sa r, ⟨hlead, hr, Nat.mod_lt _ hper.1, ?_⟩, hle⟩
  rw [hk]
  exact (iterate_mod_minimalPeriod_eq (f := nx sa) (x := r) (n := k)).symm

theorem loc_unique {sa : List Nat} {r d r' d' x : Nat} (h : Loc sa r d x) (h' : Loc sa r' d' x) : r = r' ∧ d = d' := by
  have e1 : r = (nx sa)^[cl sa r - d] x := by rw [h.eq, back r d (Nat.le_of_lt h.off)]
  have e2 : r' = (nx sa)^[cl sa r' - d'] x := by rw [h'.eq, back r' d' (Nat.le_of_lt h'.off)]
  have l1 : r ≤ r' := by
    rw [e2, h.eq, ← iterate_add_apply]; exact h.leader _
  have l2 : r' ≤ r := by
    rw [e1, h'.eq, ← iterate_add_apply]; exact h'.leader _
  have : r = r' := by omega
  subst this
  exact ⟨rfl, iter_inj h.off h'.off (h.eq.symm.trans h'.eq)⟩

theorem set_get_ne {α : Type} {l : List α} {i j : Nat} (v : α) (h : i ≠ j) : (l.set i v)[j]? = l[j]? := by
  rw [List.getElem?_set_ne h]

theorem count_set_new {l : List Bool} {i : Nat} (h : l[i]? = some false) : (l.set i true).count true = l.count true + 1 := by
  induction l generalizing i with
  | nil => simp at h
  | cons a l ih =>
    cases i with
    | zero =>
      simp at h
      subst h
      simp
    | succ i =>
      simp at h
      have := ih h
      simp [List.count_cons] at this ⊢
      omega

theorem count_set_le (l : List Bool) (i : Nat) : (l.set i true).count true ≤ l.count true + 1 := by
  induction l generalizing i with
  | nil => simp
  | cons a l ih =>
    cases i with
    | zero => cases a <;> simp
    | succ i =>
      have := ih i
      simp [List.count_cons] at this ⊢
      omega

theorem div_succ (k t : Nat) (ht : 0 < t) (hk : 0 < k) : k / t = (k - 1) / t + (if k % t = 0 then 1 else 0) := by
  obtain ⟨k, rfl⟩ : ∃ m, k = m + 1 := ⟨k - 1, by omega⟩
  rw [show k + 1 - 1 = k by omega, Nat.succ_div]
  simp [Nat.dvd_iff_mod_eq_zero]

/-- the marking loop on the cycle of `i`, from offset `k` on -/
theorem cycLoop_spec {sa : List Nat} (h : IsPerm sa) {t i : Nat} (ht : 0 < t) (hi : i < sa.length) : ∀ (fuel k : Nat) (v hs : List Bool),
    1 ≤ k → k ≤ cl sa i → cl sa i - k < fuel → v.length = sa.length → hs.length = sa.length →
    (∀ m, k ≤ m → m < cl sa i → v[(nx sa)^[m] i]? = some false) →
    ∃ v' hs', cycLoop sa t i fuel ((nx sa)^[k] i) k v hs = .ok (cl sa i, v', hs') ∧ v'.length = sa.length ∧ hs'.length = sa.length ∧
      (∀ m, k ≤ m → m < cl sa i → v'[(nx sa)^[m] i]? = some true) ∧
      (∀ x, (∀ m, k ≤ m → m < cl sa i → x ≠ (nx sa)^[m] i) → v'[x]? = v[x]?) ∧
      (∀ m, k ≤ m → m < cl sa i → m % t = 0 → hs'[(nx sa)^[m] i]? = some true) ∧
      (∀ x, (∀ m, k ≤ m → m < cl sa i → m % t = 0 → x ≠ (nx sa)^[m] i) → hs'[x]? = hs[x]?) ∧
      v'.count true = v.count true + (cl sa i - k) ∧
      hs'.count true + (k - 1) / t ≤ hs.count true + (cl sa i - 1) / t := by
  intro fuel
  induction fuel with
  | zero => intro k v hs _ _ hf; omega
  | succ fuel ih =>
    intro k v hs hk1 hkL hf hv hhs hfalse
    rw [cycLoop]
    by_cases hkL' : k = cl sa i
    · rw [if_pos (by rw [hkL', iter_cl])]
      refine ⟨v, hs, by rw [hkL'], hv, hhs, ?_, fun _ _ => rfl, ?_, fun _ _ => rfl, by omega, by rw [hkL']⟩
      · intro m h1 h2; omega
      · intro m h1 h2; omega
    · have hlt : k < cl sa i := by omega
      have hpos := (h.period hi).1
      have hne : (nx sa)^[k] i ≠ i := by
        intro he
        have := iter_inj (sa := sa) (x := i) (a := k) (b := 0) hlt hpos he
        omega
      have hjl : (nx sa)^[k] i < sa.length := h.iter_lt hi k
      rw [if_neg hne]
      have hum : umod k t = .ok (k % t) := by rw [umod, if_neg (by omega)]
      have hvs : vset v ((nx sa)^[k] i) true = .ok (v.set ((nx sa)^[k] i) true) := vset_ok _ (by omega)
      have hsg : vget sa ((nx sa)^[k] i) = .ok ((nx sa)^[k + 1] i) := by
        rw [vget_ok (nx_get hjl), iterate_succ_apply']
      have hvl : (v.set ((nx sa)^[k] i) true).length = sa.length := by simpa using hv
      have hfalse' : ∀ m, k + 1 ≤ m → m < cl sa i → (v.set ((nx sa)^[k] i) true)[(nx sa)^[m] i]? = some false := by
        intro m h1 h2
        rw [set_get_ne]
        · exact hfalse m (by omega) h2
        · intro he
          have := iter_inj hlt h2 he
          omega
      have hcv : (v.set ((nx sa)^[k] i) true).count true = v.count true + 1 := count_set_new (hfalse k (by omega) hlt)
      have key : ∀ hs1 : List Bool, hs1 = (if k % t = 0 then hs.set ((nx sa)^[k] i) true else hs) →
          (if k % t = 0 then vset hs ((nx sa)^[k] i) true else .ok hs) = .ok hs1 := by
        intro hs1 e
        by_cases h0 : k % t = 0
        · rw [if_pos h0, e, if_pos h0, vset_ok _ (by omega)]
        · rw [if_neg h0, e, if_neg h0]
      generalize hh1 : (if k % t = 0 then hs.set ((nx sa)^[k] i) true else hs) = hs1
      have hk' := key hs1 hh1.symm
      have hhs1 : hs1.length = sa.length := by rw [← hh1]; split <;> simpa using hhs
      obtain ⟨v', hs', e, a1, a2, a3, a4, a5, a6, a7, a8⟩ := ih (k + 1) (v.set ((nx sa)^[k] i) true) hs1 (by omega) (by omega) (by omega) hvl hhs1 hfalse'
      refine ⟨v', hs', ?_, a1, a2, ?_, ?_, ?_, ?_, by omega, ?_⟩
      · rw [hum]
        show (do
            let hs ← (if k % t = 0 then vset hs ((nx sa)^[k] i) true else .ok hs)
            let v ← vset v ((nx sa)^[k] i) true
            let j ← vget sa ((nx sa)^[k] i)
            cycLoop sa t i fuel j (k + 1) v hs : Res _) = _
        rw [hk', hvs, hsg]
        exact e
      · intro m h1 h2
        by_cases hmk : m = k
        · subst hmk
          rw [a4 _ (fun m' h1' h2' he => by have := iter_inj hlt h2' he; omega)]
          exact set_get_self _ (by omega)
        · exact a3 m (by omega) h2
      · intro x hx
        rw [a4 x (fun m h1 h2 => hx m (by omega) h2), set_get_ne]
        exact fun he => hx k (by omega) hlt he.symm
      · intro m h1 h2 h3
        by_cases hmk : m = k
        · subst hmk
          rw [a6 _ (fun m' h1' h2' _ he => by have := iter_inj hlt h2' he; omega), ← hh1, if_pos h3]
          exact set_get_self _ (by omega)
        · exact a5 m (by omega) h2 h3
      · intro x hx
        rw [a6 x (fun m h1 h2 h3 => hx m (by omega) h2 h3), ← hh1]
        by_cases h0 : k % t = 0
        · rw [if_pos h0, set_get_ne]
          exact fun he => hx k (by omega) hlt h0 he.symm
        · rw [if_neg h0]
      · have hd := div_succ k t ht (by omega)
        have hc : hs1.count true ≤ hs.count true + (if k % t = 0 then 1 else 0) := by
          rw [← hh1]
          by_cases h0 : k % t = 0
          · rw [if_pos h0, if_pos h0]; exact count_set_le _ _
          · rw [if_neg h0, if_neg h0]; omega
        rw [show k + 1 - 1 = k by omega, hd] at a8
        omega

/-- state after the leaders below `i` -/
structure Inv1 (sa : List Nat) (t i : Nat) (s : List Bool × List Bool) : Prop where
  lv : s.1.length = sa.length
  lh : s.2.length = sa.length
  v : ∀ r d x, Loc sa r d x → s.1[x]? = some (decide (r < i))
  hs : ∀ r d x, Loc sa r d x → s.2[x]? = some (decide (r < i ∧ t < cl sa r ∧ d % t = 0))
  cnt : t * s.2.count true ≤ 2 * s.1.count true

theorem loc_of_leader {sa : List Nat} {i m : Nat} (hi : i < sa.length) (hl : ∀ m, i ≤ (nx sa)^[m] i) (hm : m < cl sa i) :
    Loc sa i m ((nx sa)^[m] i) := ⟨hl, hi, hm, rfl⟩

theorem markStep_spec {sa : List Nat} (h : IsPerm sa) {t i : Nat} (ht : 0 < t) (hi : i < sa.length) {s : List Bool × List Bool} (hs : Inv1 sa t i s) :
    ∃ s', markStep sa t s i = .ok s' ∧ Inv1 sa t (i + 1) s' := by
  obtain ⟨r, d, hloc, hri⟩ := exists_loc h hi
  have hvi := hs.v r d i hloc
  by_cases hlt : r < i
  · have hd : decide (r < i) = true := by simpa using hlt
    refine ⟨s, by rw [markStep, vget_ok hvi, hd]; rfl, hs.lv, hs.lh, ?_, ?_, hs.cnt⟩
    · intro r' d' x hx
      rw [hs.v r' d' x hx]
      have : r' ≠ i := by
        rintro rfl
        have := (loc_unique hloc (loc_of_leader hi hx.leader (m := 0) (h.period hi).1)).1
        omega
      congr 1
      exact decide_eq_decide.mpr (by omega)
    · intro r' d' x hx
      rw [hs.hs r' d' x hx]
      have : r' ≠ i := by
        rintro rfl
        have := (loc_unique hloc (loc_of_leader hi hx.leader (m := 0) (h.period hi).1)).1
        omega
      congr 1
      refine decide_eq_decide.mpr ?_
      constructor
      · rintro ⟨a, b, c⟩; exact ⟨by omega, b, c⟩
      · rintro ⟨a, b, c⟩; exact ⟨by omega, b, c⟩
  · have hri' : r = i := by omega
    subst hri'
    have hlead := hloc.leader
    have hper := h.period hi
    have hd0 : d = 0 := iter_inj (sa := sa) hloc.off hper.1 (hloc.eq.symm)
    subst hd0
    have hd : decide (r < r) = false := by simp
    rw [hd] at hvi
    have hvf : ∀ m, 1 ≤ m → m < cl sa r → (s.1.set r true)[(nx sa)^[m] r]? = some false := by
      intro m h1 h2
      rw [set_get_ne]
      · rw [hs.v r m _ (loc_of_leader hi hlead h2), hd]
      · intro he
        have := iter_inj (sa := sa) (x := r) (a := 0) (b := m) hper.1 h2 he
        omega
    obtain ⟨v', hs', e, a1, a2, a3, a4, a5, a6, a7, a8⟩ := cycLoop_spec h ht hi (sa.length + 1) 1 (s.1.set r true) s.2 (Nat.le_refl _) hper.1 (by omega)
      (by simpa using hs.lv) hs.lh hvf
    have hstep : markStep sa t s r = (if cl sa r > t then (do let hs ← vset hs' r true; .ok (v', hs)) else .ok (v', hs')) := by
      rw [markStep, vget_ok hvi]
      show (do
        let v ← vset s.1 r true
        let j ← vget sa r
        let (k, v, hs) ← cycLoop sa t r (sa.length + 1) j 1 v s.2
        if k > t then do
          let hs ← vset hs r true
          .ok (v, hs)
        else .ok (v, hs) : Res _) = _
      rw [vset_ok _ (by rw [hs.lv]; exact hi), vget_ok (nx_get hi)]
      show (do
        let (k, v, hs) ← cycLoop sa t r (sa.length + 1) ((nx sa)^[1] r) 1 (s.1.set r true) s.2
        if k > t then do
          let hs ← vset hs r true
          .ok (v, hs)
        else .ok (v, hs) : Res _) = _
      rw [e]
      rfl
    have hv1 : ∀ r' d' x, Loc sa r' d' x → v'[x]? = some (decide (r' < r + 1)) := by
      intro r' d' x hx
      by_cases hrr : r' = r
      · subst hrr
        rw [decide_eq_true (by omega : r' < r' + 1), hx.eq]
        by_cases hd0 : d' = 0
        · subst hd0
          rw [a4 _ (fun m h1 h2 he => by
            have := iter_inj (sa := sa) hper.1 h2 he
            omega)]
          exact set_get_self _ (by rw [hs.lv]; exact hi)
        · exact a3 d' (by omega) hx.off
      · have hne : ∀ m, m < cl sa r → x ≠ (nx sa)^[m] r := by
          intro m h2 he
          exact hrr (loc_unique hx ⟨hlead, hi, h2, he⟩).1
        rw [a4 x (fun m _ h2 => hne m h2), set_get_ne _ (show r ≠ x from fun he => hne 0 hper.1 he.symm), hs.v r' d' x hx]
        congr 1
        exact decide_eq_decide.mpr (by omega)
    have hothers : ∀ r' d' x, Loc sa r' d' x → r' ≠ r → hs'[x]? = some (decide (r' < r + 1 ∧ t < cl sa r' ∧ d' % t = 0)) ∧ x ≠ r := by
      intro r' d' x hx hrr
      have hne : ∀ m, m < cl sa r → x ≠ (nx sa)^[m] r := by
        intro m h2 he
        exact hrr (loc_unique hx ⟨hlead, hi, h2, he⟩).1
      refine ⟨?_, hne 0 hper.1⟩
      rw [a6 x (fun m _ h2 _ => hne m h2), hs.hs r' d' x hx]
      congr 1
      refine decide_eq_decide.mpr ?_
      constructor
      · rintro ⟨a, b, c⟩; exact ⟨by omega, b, c⟩
      · rintro ⟨a, b, c⟩; exact ⟨by omega, b, c⟩
    have hcv : v'.count true = s.1.count true + cl sa r := by
      rw [a7, count_set_new hvi]
      have := hper.1
      omega
    have hch : t * hs'.count true ≤ t * s.2.count true + (cl sa r - 1) := by
      have h1 : hs'.count true ≤ s.2.count true + (cl sa r - 1) / t := by
        have : (1 - 1) / t = 0 := by simp
        omega
      have h2 := Nat.mul_le_mul_left t h1
      rw [Nat.mul_add] at h2
      have h3 := Nat.mul_div_le (cl sa r - 1) t
      omega
    have hcnt := hs.cnt
    by_cases hLt : cl sa r > t
    · refine ⟨(v', hs'.set r true), ?_, a1, by simpa using a2, hv1, ?_, ?_⟩
      · rw [hstep, if_pos hLt, vset_ok _ (by rw [a2]; exact hi)]; rfl
      · intro r' d' x hx
        by_cases hrr : r' = r
        · subst hrr
          rw [hx.eq]
          by_cases hd0 : d' = 0
          · subst hd0
            show (hs'.set r' true)[r']? = _
            rw [set_get_self _ (by rw [a2]; exact hi)]
            congr 1
            exact (decide_eq_true ⟨by omega, hLt, by simp⟩).symm
          · have hne : r' ≠ (nx sa)^[d'] r' := fun he => hd0 (iter_inj (sa := sa) (x := r') hx.off hper.1 he.symm)
            show (hs'.set r' true)[(nx sa)^[d'] r']? = _
            rw [set_get_ne _ hne]
            by_cases hm : d' % t = 0
            · rw [a5 d' (by omega) hx.off hm]
              congr 1
              exact (decide_eq_true ⟨by omega, hLt, hm⟩).symm
            · rw [a6 _ (fun m h1 h2 h3 he => by
                have := iter_inj (sa := sa) hx.off h2 he
                subst this
                exact hm h3), hs.hs r' d' _ (loc_of_leader hi hlead hx.off)]
              congr 1
              exact decide_eq_decide.mpr ⟨fun ⟨_, _, c⟩ => absurd c hm, fun ⟨_, _, c⟩ => absurd c hm⟩
        · obtain ⟨b1, b2⟩ := hothers r' d' x hx hrr
          show (hs'.set r true)[x]? = _
          rw [set_get_ne _ (Ne.symm b2), b1]
      · show t * (hs'.set r true).count true ≤ 2 * v'.count true
        have h1 := Nat.mul_le_mul_left t (count_set_le hs' r)
        rw [Nat.mul_add] at h1
        omega
    · refine ⟨(v', hs'), by rw [hstep, if_neg hLt], a1, a2, hv1, ?_, ?_⟩
      · intro r' d' x hx
        by_cases hrr : r' = r
        · subst hrr
          have hfalse : ¬ (t < cl sa r') := hLt
          show hs'[x]? = _
          rw [a6 x (fun m h1 h2 h3 he => by
            have : m % t = m := Nat.mod_eq_of_lt (by omega)
            omega), hs.hs r' d' x hx]
          congr 1
          exact decide_eq_decide.mpr ⟨fun ⟨_, c, _⟩ => absurd c hfalse, fun ⟨_, c, _⟩ => absurd c hfalse⟩
        · exact (hothers r' d' x hx hrr).1
      · show t * hs'.count true ≤ 2 * v'.count true
        omega

theorem foldlM_range {σ : Type} (f : σ → Nat → Res σ) (I : Nat → σ → Prop) (n : Nat) (hstep : ∀ i s, i < n → I i s → ∃ s', f s i = .ok s' ∧ I (i + 1) s') :
    ∀ m, m ≤ n → ∀ s, I 0 s → ∃ s', (List.range m).foldlM f s = .ok s' ∧ I m s' := by
  intro m
  induction m with
  | zero => intro _ s hs; exact ⟨s, rfl, hs⟩
  | succ m ih =>
    intro hm s hs
    obtain ⟨s1, e1, h1⟩ := ih (by omega) s hs
    obtain ⟨s2, e2, h2⟩ := hstep m s1 (by omega) h1
    refine ⟨s2, ?_, h2⟩
    rw [List.range_succ, List.foldlM_append, e1]
    show List.foldlM f s1 [m] = _
    simp [e2]

theorem mark_spec {sa : List Nat} (h : IsPerm sa) {t : Nat} (ht : 0 < t) : ∃ s, mark sa t = .ok s ∧ Inv1 sa t sa.length s := by
  refine foldlM_range (markStep sa t) (Inv1 sa t) sa.length (fun i s hi hs => markStep_spec h ht hi hs) sa.length (Nat.le_refl _) _ ?_
  refine ⟨by simp, by simp, ?_, ?_, by simp [List.count_replicate]⟩
  · intro r d x hx
    have : x < sa.length := hx.eq ▸ h.iter_lt hx.lt d
    simp [this]
  · intro r d x hx
    have : x < sa.length := hx.eq ▸ h.iter_lt hx.lt d
    simp [this]

/-- what the first phase and the rank structure deliver to the second phase and the queries -/
structure Ctx (sa : List Nat) (t : Nat) (hs : List Bool) (R : Rank) : Prop where
  perm : IsPerm sa
  ht : 0 < t
  lh : hs.length = sa.length
  marks : ∀ r d x, Loc sa r d x → hs[x]? = some (decide (t < cl sa r ∧ d % t = 0))
  rank : ∀ x, x < sa.length → R.rank1 x = .ok ((hs.take (x + 1)).count true)

/-- number of short cuts before `x` -/
def idx (hs : List Bool) (x : Nat) : Nat := (hs.take x).count true

theorem take_succ_count {hs : List Bool} {x : Nat} (h : hs[x]? = some true) : (hs.take (x + 1)).count true = idx hs x + 1 := by
  rw [List.take_add_one, h, idx]; simp

theorem idx_lt {hs : List Bool} {x : Nat} (h : hs[x]? = some true) : idx hs x < hs.count true := by
  have h1 := take_succ_count h
  have h2 := (List.take_sublist (x + 1) hs).count_le true
  omega

theorem idx_inj {hs : List Bool} {x y : Nat} (hx : hs[x]? = some true) (hy : hs[y]? = some true) (h : idx hs x = idx hs y) : x = y :=
  IsKth.unique (bits := hs) (c := true) (k := idx hs x + 1) ⟨hx, rfl⟩ ⟨hy, by rw [h]; rfl⟩

theorem putShort_ok {sa : List Nat} {t : Nat} {hs : List Bool} {R : Rank} (C : Ctx sa t hs R) {j i w : Nat} {sc : List Nat} (hj : hs[j]? = some true)
    (hsc : sc.length = hs.count true) (hi : i < 2 ^ w) : putShort R w j i sc = .ok (sc.set (idx hs j) i) := by
  have hjl : j < sa.length := by
    rw [← C.lh]; exact (List.getElem?_eq_some_iff.mp hj).1
  rw [putShort, C.rank j hjl, take_succ_count hj]
  show vset sc (idx hs j + 1 - 1) (i % 2 ^ w) = _
  rw [Nat.mod_eq_of_lt hi, Nat.add_sub_cancel, vset_ok _ (by rw [hsc]; exact idx_lt hj)]

/-- the offset of the short cut before offset `m > 0` (or the start of a short cycle) -/
noncomputable def anchor (sa : List Nat) (t r m : Nat) : Nat := if t < cl sa r then t * ((m - 1) / t) else 0

/-- what is stored at the short cut with offset `m` -/
noncomputable def target (sa : List Nat) (t r m : Nat) : Nat := (nx sa)^[anchor sa t r (if m = 0 then cl sa r else m)] r

theorem linkLoop_spec {sa : List Nat} {t : Nat} {hs : List Bool} {R : Rank} (C : Ctx sa t hs R) {w r : Nat} (hw : sa.length ≤ 2 ^ w)
    (hr : r < sa.length) (hlead : ∀ m, r ≤ (nx sa)^[m] r) : ∀ (fuel k : Nat) (v : List Bool) (sc : List Nat),
    1 ≤ k → k ≤ cl sa r → cl sa r - k < fuel → v.length = sa.length → sc.length = hs.count true → v[r]? = some false →
    (∀ m, k ≤ m → m < cl sa r → v[(nx sa)^[m] r]? = some true) →
    ∃ v' sc', linkLoop sa hs R w fuel ((nx sa)^[anchor sa t r k] r) ((nx sa)^[k] r) v sc = .ok ((nx sa)^[anchor sa t r (cl sa r)] r, r, v', sc') ∧
      v'.length = sa.length ∧ sc'.length = hs.count true ∧
      (∀ m, k ≤ m → m < cl sa r → v'[(nx sa)^[m] r]? = some false) ∧
      (∀ x, (∀ m, k ≤ m → m < cl sa r → x ≠ (nx sa)^[m] r) → v'[x]? = v[x]?) ∧
      (∀ m, k ≤ m → m < cl sa r → t < cl sa r → m % t = 0 → sc'[idx hs ((nx sa)^[m] r)]? = some (target sa t r m)) ∧
      (∀ y, hs[y]? = some true → (∀ m, k ≤ m → m < cl sa r → y ≠ (nx sa)^[m] r) → sc'[idx hs y]? = sc[idx hs y]?) := by
  intro fuel
  induction fuel with
  | zero => intro k v sc _ _ hf; omega
  | succ fuel ih =>
    intro k v sc hk1 hkL hf hv hsc hvr htrue
    have hper := C.perm.period hr
    rw [linkLoop]
    by_cases hkL' : k = cl sa r
    · rw [hkL', iter_cl, vget_ok hvr]
      refine ⟨v, sc, rfl, hv, hsc, ?_, fun _ _ => rfl, ?_, fun _ _ _ => rfl⟩
      · intro m h1 h2; omega
      · intro m h1 h2; omega
    · have hlt : k < cl sa r := by omega
      have hloc : Loc sa r k ((nx sa)^[k] r) := loc_of_leader hr hlead hlt
      have hjl : (nx sa)^[k] r < sa.length := C.perm.iter_lt hr k
      have hne : (nx sa)^[k] r ≠ r := by
        intro he
        have := iter_inj (sa := sa) (x := r) (a := k) (b := 0) hlt hper.1 he
        omega
      have hmk := C.marks r k _ hloc
      generalize hb : decide (t < cl sa r ∧ k % t = 0) = b at hmk
      have hanch : (if b then (nx sa)^[k] r else (nx sa)^[anchor sa t r k] r) = (nx sa)^[anchor sa t r (k + 1)] r := by
        have hd := div_succ k t C.ht (by omega)
        cases b with
        | true =>
          simp only [decide_eq_true_eq] at hb
          rw [if_pos rfl, anchor, if_pos hb.1, show k + 1 - 1 = k by omega, Nat.mul_div_cancel' (Nat.dvd_of_mod_eq_zero hb.2)]
        | false =>
          simp only [decide_eq_false_iff_not] at hb
          rw [if_neg (by simp), anchor, anchor]
          by_cases ht : t < cl sa r
          · rw [if_pos ht, if_pos ht, show k + 1 - 1 = k by omega, hd, if_neg (fun hh => hb ⟨ht, hh⟩)]; rfl
          · rw [if_neg ht, if_neg ht]
      generalize hsc1 : (if b then sc.set (idx hs ((nx sa)^[k] r)) ((nx sa)^[anchor sa t r k] r) else sc) = sc1
      have hput : (if b then putShort R w ((nx sa)^[k] r) ((nx sa)^[anchor sa t r k] r) sc else .ok sc) = .ok sc1 := by
        rw [← hsc1]
        cases b with
        | true => rw [if_pos rfl, if_pos rfl, putShort_ok C hmk hsc (Nat.lt_of_lt_of_le (C.perm.iter_lt hr _) hw)]
        | false => rfl
      have hsc1l : sc1.length = hs.count true := by rw [← hsc1]; split <;> simpa using hsc
      have hvset : vset v ((nx sa)^[k] r) false = .ok (v.set ((nx sa)^[k] r) false) := vset_ok _ (by omega)
      have hsg : vget sa ((nx sa)^[k] r) = .ok ((nx sa)^[k + 1] r) := by
        rw [vget_ok (nx_get hjl), iterate_succ_apply']
      have htrue' : ∀ m, k + 1 ≤ m → m < cl sa r → (v.set ((nx sa)^[k] r) false)[(nx sa)^[m] r]? = some true := by
        intro m h1 h2
        rw [set_get_ne]
        · exact htrue m (by omega) h2
        · intro he
          have := iter_inj hlt h2 he
          omega
      obtain ⟨v', sc', e, a1, a2, a3, a4, a5, a6⟩ := ih (k + 1) (v.set ((nx sa)^[k] r) false) sc1 (by omega) (by omega) (by omega) (by simpa using hv) hsc1l
        (by rw [set_get_ne _ hne]; exact hvr) htrue'
      refine ⟨v', sc', ?_, a1, a2, ?_, ?_, ?_, ?_⟩
      · rw [vget_ok (htrue k (by omega) hlt)]
        show (do
          let h ← vget hs ((nx sa)^[k] r)
          let sc ← (if h then putShort R w ((nx sa)^[k] r) ((nx sa)^[anchor sa t r k] r) sc else .ok sc)
          let v ← vset v ((nx sa)^[k] r) false
          let j' ← vget sa ((nx sa)^[k] r)
          linkLoop sa hs R w fuel (if h then ((nx sa)^[k] r) else ((nx sa)^[anchor sa t r k] r)) j' v sc : Res _) = _
        rw [vget_ok hmk]
        show (do
          let sc ← (if b then putShort R w ((nx sa)^[k] r) ((nx sa)^[anchor sa t r k] r) sc else .ok sc)
          let v ← vset v ((nx sa)^[k] r) false
          let j' ← vget sa ((nx sa)^[k] r)
          linkLoop sa hs R w fuel (if b then ((nx sa)^[k] r) else ((nx sa)^[anchor sa t r k] r)) j' v sc : Res _) = _
        rw [hput, hvset, hsg, hanch]
        exact e
      · intro m h1 h2
        by_cases hmk' : m = k
        · subst hmk'
          rw [a4 _ (fun m' h1' h2' he => by have := iter_inj hlt h2' he; omega)]
          exact set_get_self _ (by omega)
        · exact a3 m (by omega) h2
      · intro x hx
        rw [a4 x (fun m h1 h2 => hx m (by omega) h2), set_get_ne]
        exact fun he => hx k (by omega) hlt he.symm
      · intro m h1 h2 h3 h4
        by_cases hmk' : m = k
        · subst hmk'
          have hbt : b = true := by rw [← hb]; exact decide_eq_true ⟨h3, h4⟩
          subst hbt
          rw [a6 _ hmk (fun m' h1' h2' he => by have := iter_inj hlt h2' he; omega), ← hsc1, if_pos rfl,
            set_get_self _ (by rw [hsc]; exact idx_lt hmk), target, if_neg (by omega)]
        · exact a5 m (by omega) h2 h3 h4
      · intro y hy hne'
        rw [a6 y hy (fun m h1 h2 => hne' m (by omega) h2), ← hsc1]
        cases b with
        | true =>
          rw [if_pos rfl, set_get_ne]
          exact fun he => hne' k (by omega) hlt (idx_inj hy hmk he.symm)
        | false => rfl

/-- state before the loop variable `i` of the second phase -/
structure Inv2 (sa : List Nat) (t : Nat) (hs : List Bool) (i : Nat) (v : List Bool) (sc : List Nat) : Prop where
  lv : v.length = sa.length
  ls : sc.length = hs.count true
  v : ∀ r d x, Loc sa r d x → v[x]? = some (decide (i ≤ r))
  sc : ∀ r d x, Loc sa r d x → r < i → hs[x]? = some true → sc[idx hs x]? = some (target sa t r d)

theorem linkStep_spec {sa : List Nat} {t : Nat} {hs : List Bool} {R : Rank} (C : Ctx sa t hs R) {w i : Nat} (hw : sa.length ≤ 2 ^ w)
    (hi : i < sa.length) {v : List Bool} {sc : List Nat} (I : Inv2 sa t hs i v sc) :
    ∃ v' sc', linkStep sa hs R w i v sc = .ok (i, v', sc') ∧ Inv2 sa t hs (i + 1) v' sc' := by
  obtain ⟨r, d, hloc, hri⟩ := exists_loc C.perm hi
  have hper := C.perm.period hi
  by_cases hlt : r < i
  · have hvi := I.v r d i hloc
    have hd : decide (i ≤ r) = false := by simpa using hlt
    have hnl : ∀ r' d' x, Loc sa r' d' x → r' ≠ i := by
      rintro r' d' x hx rfl
      have := (loc_unique hloc (loc_of_leader hi hx.leader (m := 0) hper.1)).1
      omega
    refine ⟨v, sc, by rw [linkStep, vget_ok hvi, hd]; rfl, I.lv, I.ls, ?_, ?_⟩
    · intro r' d' x hx
      rw [I.v r' d' x hx]
      have := hnl r' d' x hx
      congr 1
      exact decide_eq_decide.mpr (by omega)
    · intro r' d' x hx hr' hh
      have := hnl r' d' x hx
      exact I.sc r' d' x hx (by omega) hh
  · have hri' : r = i := by omega
    subst hri'
    have hlead := hloc.leader
    have hvi := I.v r 0 r (loc_of_leader hi hlead hper.1)
    rw [decide_eq_true (Nat.le_refl _)] at hvi
    have hvt : ∀ m, 1 ≤ m → m < cl sa r → (v.set r false)[(nx sa)^[m] r]? = some true := by
      intro m h1 h2
      rw [set_get_ne]
      · rw [I.v r m _ (loc_of_leader hi hlead h2), decide_eq_true (Nat.le_refl _)]
      · intro he
        have := iter_inj (sa := sa) (x := r) (a := 0) (b := m) hper.1 h2 he
        omega
    obtain ⟨v', sc', e, a1, a2, a3, a4, a5, a6⟩ := linkLoop_spec C hw hi hlead (sa.length + 1) 1 (v.set r false) sc (Nat.le_refl _) hper.1 (by omega)
      (by simpa using I.lv) I.ls (set_get_self _ (by rw [I.lv]; exact hi)) hvt
    have ha1 : anchor sa t r 1 = 0 := by rw [anchor]; split <;> simp
    rw [ha1] at e
    have hmk := C.marks r 0 r (loc_of_leader hi hlead hper.1)
    generalize hb : decide (t < cl sa r ∧ 0 % t = 0) = b at hmk
    generalize hsc2 : (if b then sc'.set (idx hs r) ((nx sa)^[anchor sa t r (cl sa r)] r) else sc') = sc2
    have hput : (if b then putShort R w r ((nx sa)^[anchor sa t r (cl sa r)] r) sc' else .ok sc') = .ok sc2 := by
      rw [← hsc2]
      cases b with
      | true => rw [if_pos rfl, if_pos rfl, putShort_ok C hmk a2 (Nat.lt_of_lt_of_le (C.perm.iter_lt hi _) hw)]
      | false => rfl
    refine ⟨v', sc2, ?_, a1, ?_, ?_, ?_⟩
    · rw [linkStep, vget_ok hvi]
      show (do
        let v ← vset v r false
        let j ← vget sa r
        let (i, j, v, sc) ← linkLoop sa hs R w (sa.length + 1) r j v sc
        let h ← vget hs j
        let sc ← (if h then putShort R w j i sc else .ok sc)
        .ok (j, v, sc) : Res _) = _
      rw [vset_ok _ (by rw [I.lv]; exact hi), vget_ok (nx_get hi)]
      show (do
        let (i, j, v, sc) ← linkLoop sa hs R w (sa.length + 1) ((nx sa)^[0] r) ((nx sa)^[1] r) (v.set r false) sc
        let h ← vget hs j
        let sc ← (if h then putShort R w j i sc else .ok sc)
        .ok (j, v, sc) : Res _) = _
      rw [e]
      show (do
        let h ← vget hs r
        let sc ← (if h then putShort R w r ((nx sa)^[anchor sa t r (cl sa r)] r) sc' else .ok sc')
        .ok (r, v', sc) : Res _) = _
      rw [vget_ok hmk]
      show (do
        let sc ← (if b then putShort R w r ((nx sa)^[anchor sa t r (cl sa r)] r) sc' else .ok sc')
        .ok (r, v', sc) : Res _) = _
      rw [hput]
      rfl
    · rw [← hsc2]; split <;> simpa using a2
    · intro r' d' x hx
      by_cases hrr : r' = r
      · subst hrr
        rw [decide_eq_false (by omega : ¬ r' + 1 ≤ r'), hx.eq]
        by_cases hd0 : d' = 0
        · subst hd0
          rw [a4 _ (fun m h1 h2 he => by
            have := iter_inj (sa := sa) hper.1 h2 he
            omega)]
          exact set_get_self _ (by rw [I.lv]; exact hi)
        · exact a3 d' (by omega) hx.off
      · have hne : ∀ m, m < cl sa r → x ≠ (nx sa)^[m] r := by
          intro m h2 he
          exact hrr (loc_unique hx ⟨hlead, hi, h2, he⟩).1
        rw [a4 x (fun m _ h2 => hne m h2), set_get_ne _ (show r ≠ x from fun he => hne 0 hper.1 he.symm), I.v r' d' x hx]
        congr 1
        exact decide_eq_decide.mpr (by omega)
    · intro r' d' x hx hr' hh
      by_cases hrr : r' = r
      · subst hrr
        have hh2 := hh
        rw [C.marks r' d' x hx] at hh2
        have ⟨ht, hm⟩ : t < cl sa r' ∧ d' % t = 0 := by simpa using hh2
        have hbt : b = true := by rw [← hb]; exact decide_eq_true ⟨ht, by simp⟩
        subst hbt
        rw [← hsc2, if_pos rfl]
        by_cases hd0 : d' = 0
        · subst hd0
          have hxr : x = r' := hx.eq
          subst hxr
          rw [set_get_self _ (by rw [a2]; exact idx_lt hmk), target, if_pos rfl]
        · rw [set_get_ne, hx.eq]
          · exact a5 d' (by omega) hx.off ht hm
          · intro he
            have hxr : r' = x := idx_inj hmk hh he
            exact hd0 (iter_inj (sa := sa) (x := r') hx.off hper.1 (hx.eq.symm.trans hxr.symm))
      · have hne : ∀ m, m < cl sa r → x ≠ (nx sa)^[m] r := by
          intro m h2 he
          exact hrr (loc_unique hx ⟨hlead, hi, h2, he⟩).1
        rw [← I.sc r' d' x hx (by omega) hh, ← a6 x hh (fun m _ h2 => hne m h2), ← hsc2]
        cases b with
        | true => rw [if_pos rfl, set_get_ne _ (fun he => hne 0 hper.1 (idx_inj hmk hh he).symm)]
        | false => rfl

theorem link_spec {sa : List Nat} {t : Nat} {hs : List Bool} {R : Rank} (C : Ctx sa t hs R) {w : Nat} (hw : sa.length ≤ 2 ^ w) :
    ∀ (fuel i : Nat) (v : List Bool) (sc : List Nat), sa.length - i < fuel → i ≤ sa.length → Inv2 sa t hs i v sc →
    ∃ v' sc', link sa hs R w fuel i v sc = .ok sc' ∧ Inv2 sa t hs sa.length v' sc' := by
  intro fuel
  induction fuel with
  | zero => intro i v sc hf; omega
  | succ fuel ih =>
    intro i v sc hf hi I
    rw [link]
    by_cases hlt : i < sa.length
    · rw [if_pos hlt]
      obtain ⟨v1, sc1, e, I1⟩ := linkStep_spec C hw hlt I
      obtain ⟨v2, sc2, e2, I2⟩ := ih (i + 1) v1 sc1 (by omega) (by omega) I1
      refine ⟨v2, sc2, ?_, I2⟩
      rw [e]
      exact e2
    · rw [if_neg hlt]
      have : i = sa.length := by omega
      subst this
      exact ⟨v, sc, rfl, I⟩

/-- a finished structure -/
structure Good (t : Nat) (S : SISA) : Prop where
  ctx : Ctx S.sa t S.hs S.rank
  sc : ∀ r d x, Loc S.sa r d x → S.hs[x]? = some true → S.sc[idx S.hs x]? = some (target S.sa t r d)
  sparse : t * S.sc.length ≤ 2 * S.sa.length

theorem build_spec {sa : List Nat} (h : IsPerm sa) (hn : 0 < sa.length) (h64 : sa.length < 2 ^ 64) {t : Nat} (ht : 0 < t) :
    ∃ S, build sa t = .ok S ∧ S.sa = sa ∧ Good t S := by
  obtain ⟨⟨v, hs⟩, e1, I1⟩ := mark_spec h ht
  have hlh : hs.length = sa.length := I1.lh
  obtain ⟨R, e2, hR, -⟩ := rank_exact (BV.ofBits hs) (ofBits_wf hs (by omega))
  rw [ofBits_bits] at hR
  have hRn : (BV.ofBits hs).n = sa.length := hlh
  have C : Ctx sa t hs R := by
    refine ⟨h, ht, hlh, ?_, ?_⟩
    · intro r d x hx
      have := I1.hs r d x hx
      rw [this]
      congr 1
      exact decide_eq_decide.mpr ⟨fun ⟨_, a, b⟩ => ⟨a, b⟩, fun ⟨a, b⟩ => ⟨hx.lt, a, b⟩⟩
    · intro x hx
      exact (hR x (by rw [hRn]; exact hx)).1
  have hm : R.rank1 (if sa.length = 0 then 2 ^ 64 - 1 else sa.length - 1) = .ok (hs.count true) := by
    rw [if_neg (by omega), C.rank _ (by omega), List.take_of_length_le (by omega)]
  have hw : sa.length ≤ 2 ^ bitsFor sa.length := Nat.le_of_lt (lt_two_pow_bitsFor _ h64)
  have I2 : Inv2 sa t hs 0 v (List.replicate (hs.count true) 0) := by
    refine ⟨I1.lv, by simp, ?_, ?_⟩
    · intro r d x hx
      have h1 := I1.v r d x hx
      show v[x]? = _
      rw [show v[x]? = some (decide (r < sa.length)) from h1, decide_eq_true hx.lt, decide_eq_true (Nat.zero_le _)]
    · intro r d x hx hr; omega
  obtain ⟨v', sc, e3, I3⟩ := link_spec C hw (sa.length + 1) 0 v _ (by omega) (by omega) I2
  refine ⟨⟨sa, hs, R, sc⟩, ?_, rfl, C, ?_, ?_⟩
  · rw [build, e1]
    show (do
      let R ← Rank.build (BV.ofBits hs)
      let m ← R.rank1 (if sa.length = 0 then 2 ^ 64 - 1 else sa.length - 1)
      let sc ← link sa hs R (bitsFor sa.length) (sa.length + 1) 0 v (List.replicate m 0)
      .ok ⟨sa, hs, R, sc⟩ : Res SISA) = _
    rw [e2]
    show (do
      let m ← R.rank1 (if sa.length = 0 then 2 ^ 64 - 1 else sa.length - 1)
      let sc ← link sa hs R (bitsFor sa.length) (sa.length + 1) 0 v (List.replicate m 0)
      .ok ⟨sa, hs, R, sc⟩ : Res SISA) = _
    rw [hm]
    show (do
      let sc ← link sa hs R (bitsFor sa.length) (sa.length + 1) 0 v (List.replicate (hs.count true) 0)
      .ok ⟨sa, hs, R, sc⟩ : Res SISA) = _
    rw [e3]
    rfl
  · intro r d x hx hh
    exact I3.sc r d x hx hx.lt hh
  · show t * sc.length ≤ 2 * sa.length
    rw [I3.ls]
    have h1 : t * hs.count true ≤ 2 * v.count true := I1.cnt
    have h2 : v.count true ≤ v.length := List.count_le_length
    have h3 : v.length = sa.length := I1.lv
    omega

/-! ### queries -/

theorem walk {t : Nat} {S : SISA} (G : Good t S) {i p : Nat} (hp : nx S.sa p = i) : ∀ (m fuel j : Nat), m < fuel → j < S.sa.length →
    (nx S.sa)^[m] j = p → queryLoop S i fuel j false = .ok p := by
  intro m
  induction m with
  | zero =>
    intro fuel j hf hj he
    obtain ⟨fuel, rfl⟩ : ∃ f, fuel = f + 1 := ⟨fuel - 1, by omega⟩
    have : j = p := he
    subst this
    rw [queryLoop, vget_ok (nx_get hj), hp]
    show (if i = i then Except.ok j else _) = _
    rw [if_pos rfl]
  | succ m ih =>
    intro fuel j hf hj he
    obtain ⟨fuel, rfl⟩ : ∃ f, fuel = f + 1 := ⟨fuel - 1, by omega⟩
    rw [queryLoop, vget_ok (nx_get hj)]
    show (if nx S.sa j = i then Except.ok j else _) = _
    by_cases hx : nx S.sa j = i
    · rw [if_pos hx, G.ctx.perm.inj (hx.trans hp.symm)]
    · rw [if_neg hx]
      have hh : hop S j false = .ok (nx S.sa j, false) := by
        rw [hop]
        show (do let j ← vget S.sa j; .ok (j, false) : Res _) = _
        rw [vget_ok (nx_get hj)]; rfl
      rw [hh]
      exact ih fuel (nx S.sa j) (by omega) (G.ctx.perm.nx_lt hj) (by rw [← he, iterate_succ_apply])

theorem walkS {t : Nat} {S : SISA} (G : Good t S) {i p : Nat} (hp : nx S.sa p = i) : ∀ (m fuel j : Nat), j < S.sa.length →
    (∀ m', m' < m → S.hs[(nx S.sa)^[m'] j]? = some false) →
    queryLoop S i (fuel + m) j true = .ok p ∨ queryLoop S i (fuel + m) j true = queryLoop S i fuel ((nx S.sa)^[m] j) true := by
  intro m
  induction m with
  | zero => intro fuel j _ _; exact Or.inr rfl
  | succ m ih =>
    intro fuel j hj hh
    rw [show fuel + (m + 1) = (fuel + m) + 1 by omega, queryLoop, vget_ok (nx_get hj)]
    show ((if nx S.sa j = i then Except.ok j else _) = _) ∨ ((if nx S.sa j = i then Except.ok j else _) = _)
    by_cases hx : nx S.sa j = i
    · left
      rw [if_pos hx, G.ctx.perm.inj (hx.trans hp.symm)]
    · rw [if_neg hx]
      have hop' : hop S j true = .ok (nx S.sa j, true) := by
        rw [hop, if_pos rfl, vget_ok (show S.hs[j]? = some false from hh 0 (by omega))]
        show (do let j ← vget S.sa j; .ok (j, true) : Res _) = _
        rw [vget_ok (nx_get hj)]; rfl
      rw [hop', iterate_succ_apply]
      exact ih fuel (nx S.sa j) (G.ctx.perm.nx_lt hj) (fun m' hm' => by rw [← iterate_succ_apply]; exact hh (m' + 1) (by omega))

/-- at a short cut -/
theorem jump {t : Nat} {S : SISA} (G : Good t S) {i p r d x : Nat} (hp : nx S.sa p = i) (hloc : Loc S.sa r d x) (hh : S.hs[x]? = some true)
    {m fuel : Nat} (hm : (nx S.sa)^[m] (target S.sa t r d) = p) (hf : m + 1 < fuel) : queryLoop S i fuel x true = .ok p := by
  have hx : x < S.sa.length := hloc.eq ▸ G.ctx.perm.iter_lt hloc.lt d
  obtain ⟨fuel, rfl⟩ : ∃ f, fuel = f + 1 := ⟨fuel - 1, by omega⟩
  rw [queryLoop, vget_ok (nx_get hx)]
  show (if nx S.sa x = i then Except.ok x else _) = _
  by_cases hxi : nx S.sa x = i
  · rw [if_pos hxi, G.ctx.perm.inj (hxi.trans hp.symm)]
  · rw [if_neg hxi]
    have hop' : hop S x true = .ok (target S.sa t r d, false) := by
      rw [hop, if_pos rfl, vget_ok hh]
      show (do
        let r ← S.rank.rank1 x
        let j ← vget S.sc (r - 1)
        .ok (j, false) : Res _) = _
      rw [G.ctx.rank x hx, take_succ_count hh]
      show (do
        let j ← vget S.sc (idx S.hs x + 1 - 1)
        .ok (j, false) : Res _) = _
      rw [Nat.add_sub_cancel, vget_ok (G.sc r d x hloc hh)]; rfl
    rw [hop']
    exact walk G hp m fuel _ (by omega) (G.ctx.perm.iter_lt hloc.lt _) hm

theorem query_spec {t : Nat} {S : SISA} (G : Good t S) {x fuel : Nat} (hx : x < S.sa.length) (hf : t < fuel) :
    ∃ p, query S fuel x = .ok p ∧ p < S.sa.length ∧ S.sa[p]? = some x := by
  obtain ⟨r, d, hloc, -⟩ := exists_loc G.ctx.perm hx
  have hper := G.ctx.perm.period hloc.lt
  have ht := G.ctx.ht
  have hdL := hloc.off
  -- the predecessor
  have hpl : (nx S.sa)^[d + cl S.sa r - 1] r < S.sa.length := G.ctx.perm.iter_lt hloc.lt _
  have hp : nx S.sa ((nx S.sa)^[d + cl S.sa r - 1] r) = x := by
    rw [← iterate_succ_apply' (nx S.sa), show (d + cl S.sa r - 1).succ = d + cl S.sa r by omega, iterate_add_apply, iter_cl, hloc.eq]
  have hp' : 0 < d → (nx S.sa)^[d + cl S.sa r - 1] r = (nx S.sa)^[d - 1] r := by
    intro hd
    rw [show d + cl S.sa r - 1 = (d - 1) + cl S.sa r by omega, iterate_add_apply, iter_cl]
  suffices hq : query S fuel x = .ok ((nx S.sa)^[d + cl S.sa r - 1] r) from
    ⟨_, hq, hpl, by rw [nx_get hpl, hp]⟩
  rw [query]
  -- marks on the way
  have hmk : ∀ m, m < cl S.sa r → S.hs[(nx S.sa)^[m] r]? = some (decide (t < cl S.sa r ∧ m % t = 0)) :=
    fun m hm => G.ctx.marks r m _ (loc_of_leader hloc.lt hloc.leader hm)
  have hshift : ∀ m, (nx S.sa)^[m] x = (nx S.sa)^[d + m] r := by
    intro m; rw [hloc.eq, ← iterate_add_apply, Nat.add_comm]
  by_cases hL : t < cl S.sa r
  · -- next multiple of t
    have hq1 := Nat.div_add_mod (d + t - 1) t
    have hq2 := Nat.mod_lt (d + t - 1) ht
    generalize hqe : (d + t - 1) / t = q at hq1
    have hed : d ≤ t * q ∧ t * q < d + t := by omega
    have hnom : ∀ m, d ≤ m → m < t * q → m % t ≠ 0 := by
      intro m h1 h2 h3
      obtain ⟨c, rfl⟩ := Nat.dvd_of_mod_eq_zero h3
      have : c < q := Nat.lt_of_mul_lt_mul_left h2
      have := Nat.mul_le_mul_left t (show c + 1 ≤ q by omega)
      rw [Nat.mul_add] at this
      omega
    -- the last short cut of the cycle
    have hlast1 := Nat.div_add_mod (cl S.sa r - 1) t
    have hlast2 := Nat.mod_lt (cl S.sa r - 1) ht
    have htarget0 : target S.sa t r 0 = (nx S.sa)^[t * ((cl S.sa r - 1) / t)] r := by
      rw [target, if_pos rfl, anchor, if_pos hL]
    generalize hql : (cl S.sa r - 1) / t = ql at hlast1 htarget0
    by_cases heL : t * q < cl S.sa r
    · have hfree : ∀ m', m' < t * q - d → S.hs[(nx S.sa)^[m'] x]? = some false := by
        intro m' hm'
        rw [hshift, hmk _ (by omega)]
        congr 1
        exact decide_eq_false (fun hh => hnom (d + m') (by omega) (by omega) hh.2)
      obtain ⟨f', hf'⟩ : ∃ f', fuel = f' + (t * q - d) := ⟨fuel - (t * q - d), by omega⟩
      rw [hf']
      rcases walkS G hp (t * q - d) f' x hx hfree with h1 | h1
      · exact h1
      · rw [h1, hshift, show d + (t * q - d) = t * q by omega]
        have hh : S.hs[(nx S.sa)^[t * q] r]? = some true := by
          rw [hmk _ heL]; congr 1; exact decide_eq_true ⟨hL, Nat.mul_mod_right _ _⟩
        have hloc' := loc_of_leader hloc.lt hloc.leader heL
        by_cases he0 : t * q = 0
        · -- d = 0, at the start of the cycle
          rw [he0] at hloc' hh ⊢
          have hd0 : d = 0 := by omega
          refine jump G hp hloc' hh (m := cl S.sa r - 1 - t * ql) ?_ (by omega)
          rw [htarget0, ← iterate_add_apply]
          congr 2
          omega
        · have hqpos : 0 < q := Nat.pos_of_ne_zero (fun hh => he0 (by rw [hh]; simp))
          have hdpos : 0 < d := by
            rcases Nat.eq_zero_or_pos d with hd | hd
            · exfalso
              rw [hd] at hqe
              rw [Nat.div_eq_of_lt (by omega)] at hqe
              omega
            · exact hd
          have htq : target S.sa t r (t * q) = (nx S.sa)^[t * q - t] r := by
            rw [target, if_neg he0, anchor, if_pos hL]
            congr 2
            have h2 := div_succ (t * q) t ht (by omega)
            rw [Nat.mul_mod_right, if_pos rfl, Nat.mul_div_cancel_left _ ht] at h2
            have h3 : (t * q - 1) / t = q - 1 := by omega
            rw [h3, Nat.mul_sub, Nat.mul_one]
          have htle : t ≤ t * q := Nat.le_mul_of_pos_right _ hqpos
          refine jump G hp hloc' hh (m := d - 1 - (t * q - t)) ?_ (by omega)
          rw [htq, ← iterate_add_apply, hp' hdpos]
          congr 2
          omega
    · have hfree : ∀ m', m' < cl S.sa r - d → S.hs[(nx S.sa)^[m'] x]? = some false := by
        intro m' hm'
        rw [hshift, hmk _ (by omega)]
        congr 1
        exact decide_eq_false (fun hh => hnom (d + m') (by omega) (by omega) hh.2)
      have hlq : t * ql < d := by
        rcases Nat.lt_or_ge (t * ql) d with h1 | h1
        · exact h1
        · exact absurd (Nat.mul_mod_right t ql) (hnom (t * ql) h1 (by omega))
      obtain ⟨f', hf'⟩ : ∃ f', fuel = f' + (cl S.sa r - d) := ⟨fuel - (cl S.sa r - d), by omega⟩
      rw [hf']
      rcases walkS G hp (cl S.sa r - d) f' x hx hfree with h1 | h1
      · exact h1
      · rw [h1, hshift, show d + (cl S.sa r - d) = cl S.sa r by omega, iter_cl]
        have hloc' := loc_of_leader (m := 0) hloc.lt hloc.leader hper.1
        have hh : S.hs[r]? = some true := by
          have := hmk 0 hper.1
          rw [decide_eq_true ⟨hL, by simp⟩] at this
          exact this
        refine jump G hp hloc' hh (m := d - 1 - t * ql) ?_ (by omega)
        rw [htarget0, ← iterate_add_apply, hp' (by omega)]
        congr 2
        omega
  · have hfree : ∀ m', m' < cl S.sa r - 1 → S.hs[(nx S.sa)^[m'] x]? = some false := by
      intro m' _
      rw [hshift, show d + m' = d + m' from rfl, ← iterate_mod_minimalPeriod_eq (f := nx S.sa) (x := r) (n := d + m')]
      show S.hs[(nx S.sa)^[(d + m') % cl S.sa r] r]? = _
      rw [hmk _ (Nat.mod_lt _ hper.1)]
      congr 1
      exact decide_eq_false (fun hh => hL hh.1)
    obtain ⟨f', hf'⟩ : ∃ f', fuel = f' + (cl S.sa r - 1) := ⟨fuel - (cl S.sa r - 1), by omega⟩
    rw [hf']
    rcases walkS G hp (cl S.sa r - 1) f' x hx hfree with h1 | h1
    · exact h1
    · rw [h1, hshift, show d + (cl S.sa r - 1) = d + cl S.sa r - 1 by omega]
      obtain ⟨f'', rfl⟩ : ∃ f, f' = f + 1 := ⟨f' - 1, by omega⟩
      rw [queryLoop, vget_ok (nx_get hpl), hp]
      show (if x = x then Except.ok _ else _) = _
      rw [if_pos rfl]

end SI
end Tdc
