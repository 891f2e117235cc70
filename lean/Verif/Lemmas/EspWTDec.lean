import Verif.Lemmas.EspWT

/-!
# Wavelet trees: reading
-/

namespace Tdc
namespace Esp

/-- Number of values with prefix `p` on level `d` -/
def ncnt (v : List Nat) (L d p : Nat) : Nat := v.countP (fun y => y >>> (L - d) = p)

/-- Start of node `p` on level `d` -/
def noff (v : List Nat) (L d p : Nat) : Nat := v.countP (fun y => y >>> (L - d) < p)

theorem noff_succ (v : List Nat) (L d p : Nat) : noff v L d (p + 1) = noff v L d p + ncnt v L d p := countP_lt_succ (· >>> (L - d)) v p

theorem noff_zero (v : List Nat) (L d : Nat) : noff v L d 0 = 0 := by
  unfold noff
  rw [List.countP_eq_zero]
  simp

theorem noff_le (v : List Nat) (L d p : Nat) : noff v L d p ≤ v.length := List.countP_le_length

/-- The bits of one node -/
theorem node_slice {v : List Nat} {L d : Nat} {bv : List Bool} (hl : bv.length = v.length)
    (h : ∀ t x : Nat, v[t]? = some x → bv[spos (· >>> (L - d)) v t (x >>> (L - d))]? = some (x.testBit (L - 1 - d))) (p : Nat) :
    (bv.drop (noff v L d p)).take (ncnt v L d p) = (v.filter (fun y => y >>> (L - d) = p)).map (fun x => x.testBit (L - 1 - d)) := by
  apply List.ext_getElem?
  intro i
  have hle := noff_le v L d (p + 1)
  rw [noff_succ] at hle
  have hfl : (v.filter (fun y => decide (y >>> (L - d) = p))).length = ncnt v L d p := by
    rw [ncnt, List.countP_eq_length_filter]
  by_cases hi : i < ncnt v L d p
  · rw [List.getElem?_take_of_lt hi, List.getElem?_drop, List.getElem?_map]
    obtain ⟨y, hy⟩ : ∃ y, (v.filter (fun y => decide (y >>> (L - d) = p)))[i]? = some y := ⟨_, List.getElem?_eq_getElem (by rw [hfl]; exact hi)⟩
    rw [hy]
    obtain ⟨t, h1, h2, h3⟩ := filter_rank _ _ _ hy
    simp only [decide_eq_true_eq] at h2
    have := h t y h1
    rw [spos, h2, h3] at this
    exact this
  · rw [List.getElem?_eq_none (by simp; omega), List.getElem?_eq_none (by simp only [List.length_map, hfl]; omega)]

theorem testBit_shift (x L d : Nat) (hd : d < L) : x >>> (L - (d + 1)) = 2 * (x >>> (L - d)) + (if x.testBit (L - 1 - d) then 1 else 0) := by
  have e : L - d = L - (d + 1) + 1 := by omega
  have e2 : L - 1 - d = L - (d + 1) := by omega
  rw [e, e2, Nat.shiftRight_succ, Nat.testBit]
  have : (1 &&& x >>> (L - (d + 1))) = x >>> (L - (d + 1)) % 2 := by rw [Nat.and_comm]; exact Nat.and_two_pow_sub_one_eq_mod _ 1
  rw [this]
  generalize x >>> (L - (d + 1)) = k
  rcases Nat.mod_two_eq_zero_or_one k with h | h <;> simp [h] <;> omega

theorem node_counts (v : List Nat) (L d p : Nat) (hd : d < L) :
    ((v.filter (fun y => y >>> (L - d) = p)).map (fun x => x.testBit (L - 1 - d))).count false = ncnt v L (d + 1) (2 * p) ∧
    ((v.filter (fun y => y >>> (L - d) = p)).map (fun x => x.testBit (L - 1 - d))).count true = ncnt v L (d + 1) (2 * p + 1) := by
  unfold ncnt
  induction v with
  | nil => simp
  | cons x v ih =>
    have e := testBit_shift x L d hd
    simp only [List.countP_cons, List.filter_cons, decide_eq_true_eq]
    rw [← ih.1, ← ih.2, e]
    by_cases hp : x >>> (L - d) = p
    · rw [if_pos hp, hp, List.map_cons]
      generalize x.testBit (L - 1 - d) = b
      cases b <;> simp [List.count_cons] <;> omega
    · rw [if_neg hp]
      generalize x.testBit (L - 1 - d) = b
      generalize x >>> (L - d) = k at *
      cases b <;> simp <;> omega

theorem wtNextSizes_ok {v : List Nat} {L d : Nat} {bv : List Bool} (hd : d < L) (hl : bv.length = v.length)
    (h : ∀ t x : Nat, v[t]? = some x → bv[spos (· >>> (L - d)) v t (x >>> (L - d))]? = some (x.testBit (L - 1 - d))) : ∀ (k p : Nat),
    wtNextSizes bv (noff v L d p) ((List.range' p k).map (ncnt v L d)) = .ok ((List.range' (2 * p) (2 * k)).map (ncnt v L (d + 1)))
  | 0, p => rfl
  | k + 1, p => by
    have hle := noff_le v L d (p + 1)
    rw [noff_succ] at hle
    rw [List.range'_succ, List.map_cons, wtNextSizes, if_pos (by omega), ← noff_succ, wtNextSizes_ok hd hl h k (p + 1), node_slice hl h]
    simp only [Except.bind]
    rw [(node_counts v L d p hd).1, (node_counts v L d p hd).2, show 2 * (k + 1) = 2 * k + 1 + 1 by omega, List.range'_succ, List.range'_succ]
    simp only [List.map_cons, show 2 * p + 1 + 1 = 2 * (p + 1) by omega]

theorem wtSizes_ok {v : List Nat} {L : Nat} {bvs : List (List Bool)} (h : WtOk v L bvs) : ∀ (k d : Nat), d + k + 1 = L →
    wtSizes (bvs.drop d) ((List.range (2 ^ d)).map (ncnt v L d)) = .ok ((List.range' d (k + 1)).map fun e => (List.range (2 ^ e)).map (ncnt v L e))
  | 0, d, hd => by
    obtain ⟨bv, h1, h2, h3⟩ := h.2 d (by omega)
    have : bvs.drop d = [bv] := by
      rw [List.drop_eq_getElem_cons (by rw [h.1]; omega), List.drop_eq_nil_of_le (by rw [h.1]; omega)]
      rw [List.getElem?_eq_some_iff] at h1
      rw [h1.2]
    rw [this]
    rfl
  | k + 1, d, hd => by
    obtain ⟨bv, h1, h2, h3⟩ := h.2 d (by omega)
    obtain ⟨bv', h1', _⟩ := h.2 (d + 1) (by omega)
    have e : bvs.drop d = bv :: bvs.drop (d + 1) := by
      rw [List.drop_eq_getElem_cons (by rw [h.1]; omega)]
      rw [List.getElem?_eq_some_iff] at h1
      rw [h1.2]
    have e' : bvs.drop (d + 1) = bv' :: bvs.drop (d + 1 + 1) := by
      rw [List.drop_eq_getElem_cons (by rw [h.1]; omega)]
      rw [List.getElem?_eq_some_iff] at h1'
      rw [h1'.2]
    have ih := wtSizes_ok h k (d + 1) (by omega)
    have hn := wtNextSizes_ok (by omega) h2 h3 (2 ^ d) 0
    rw [noff_zero, ← List.range_eq_range', Nat.mul_zero, ← List.range_eq_range', Nat.mul_comm, ← Nat.pow_succ] at hn
    rw [e, e', wtSizes]
    case x_2 => simp
    rw [hn]
    simp only [Except.bind]
    rw [← e', ih, List.range'_succ]
    rfl

/-! ## The iterators -/

/-- Iterator of node `p` on level `d` after `t` values -/
def iterAt (v : List Nat) (L t d p : Nat) : WTIter :=
  ⟨noff v L d p + (v.take t).countP (fun y => y >>> (L - d) = p), noff v L d p + ncnt v L d p, d, p * 2 ^ (L - d), (p + 1) * 2 ^ (L - d)⟩

theorem heap_inj {d e p q : Nat} (hp : p < 2 ^ d) (hq : q < 2 ^ e) (h : 2 ^ d - 1 + p = 2 ^ e - 1 + q) : d = e ∧ p = q := by
  have hd := Nat.two_pow_pos d
  have he := Nat.two_pow_pos e
  rcases Nat.lt_trichotomy d e with hlt | heq | hlt
  · have : (2 : Nat) ^ (d + 1) ≤ 2 ^ e := Nat.pow_le_pow_right (by omega) hlt
    rw [Nat.pow_succ] at this
    omega
  · subst heq
    exact ⟨rfl, by omega⟩
  · have : (2 : Nat) ^ (e + 1) ≤ 2 ^ d := Nat.pow_le_pow_right (by omega) hlt
    rw [Nat.pow_succ] at this
    omega

theorem heap_lt {L d p : Nat} (hd : d < L) (hp : p < 2 ^ d) : 2 ^ d - 1 + p < 2 ^ L - 1 := by
  have : (2 : Nat) ^ (d + 1) ≤ 2 ^ L := Nat.pow_le_pow_right (by omega) hd
  rw [Nat.pow_succ] at this
  have := Nat.two_pow_pos d
  omega

/-- Every index is the index of a node. -/
theorem heap_cover : ∀ (L i : Nat), i < 2 ^ L - 1 → ∃ d p, d < L ∧ p < 2 ^ d ∧ i = 2 ^ d - 1 + p
  | 0, i, h => by simp at h
  | L + 1, i, h => by
    have := Nat.two_pow_pos L
    by_cases hi : i < 2 ^ L - 1
    · obtain ⟨d, p, h1, h2, h3⟩ := heap_cover L i hi
      exact ⟨d, p, by omega, h2, h3⟩
    · rw [Nat.pow_succ] at h
      exact ⟨L, i - (2 ^ L - 1), by omega, by omega, by omega⟩

/-- The bounds of node `p` on level `d` of a tree with `L` levels are set. -/
def Bounds (L : Nat) (its : List WTIter) (d p : Nat) : Prop :=
  ∃ it, its[2 ^ d - 1 + p]? = some it ∧ it.min = p * 2 ^ (L - d) ∧ it.max = (p + 1) * 2 ^ (L - d)

/-- State of the construction before node `p` of level `d` -/
structure ItInv (v : List Nat) (L d p : Nat) (its : List WTIter) : Prop where
  len : its.length = 2 ^ L - 1
  done : ∀ e q, q < 2 ^ e → (e < d ∨ e = d ∧ q < p) → its[2 ^ e - 1 + q]? = some (iterAt v L 0 e q)
  cur : ∀ q, q < 2 ^ d → p ≤ q → d < L → Bounds L its d q
  nxt : ∀ q, q < 2 * p → d + 1 < L → q < 2 ^ (d + 1) → Bounds L its (d + 1) q

theorem wtNode_ok {v : List Nat} {L d p : Nat} {its : List WTIter} (h : ItInv v L d p its) (hd : d < L) (hp : p < 2 ^ d) :
    ∃ its', wtNode L d (2 ^ d - 1 + p) (noff v L d p) (ncnt v L d p) its = .ok its' ∧ ItInv v L d (p + 1) its' := by
  obtain ⟨it, h1, h2, h3⟩ := h.cur p hp (Nat.le_refl _) hd
  have hil := heap_lt hd hp
  have hpd := Nat.two_pow_pos d
  unfold wtNode
  rw [h1]
  simp only
  have hA : (⟨noff v L d p, noff v L d p + ncnt v L d p, d, it.min, it.max⟩ : WTIter) = iterAt v L 0 d p := by
    simp [iterAt, h2, h3]
  rw [hA]
  split
  · rename_i hlast
    have hc0 : (2 ^ d - 1 + p) * 2 + 1 = 2 ^ (d + 1) - 1 + 2 * p := by rw [Nat.pow_succ]; omega
    have hc1 : (2 ^ d - 1 + p) * 2 + 2 = 2 ^ (d + 1) - 1 + (2 * p + 1) := by rw [Nat.pow_succ]; omega
    have hq0 : 2 * p < 2 ^ (d + 1) := by rw [Nat.pow_succ]; omega
    have hq1 : 2 * p + 1 < 2 ^ (d + 1) := by rw [Nat.pow_succ]; omega
    have hl0 := heap_lt (L := L) (d := d + 1) (by omega) hq0
    have hl1 := heap_lt (L := L) (d := d + 1) (by omega) hq1
    rw [hc0, hc1]
    have hne0 : 2 ^ d - 1 + p ≠ 2 ^ (d + 1) - 1 + 2 * p := fun e => by have := (heap_inj hp hq0 e).1; omega
    have hne1 : 2 ^ d - 1 + p ≠ 2 ^ (d + 1) - 1 + (2 * p + 1) := fun e => by have := (heap_inj hp hq1 e).1; omega
    rw [List.getElem?_set_ne hne0, List.getElem?_set_ne hne1, List.getElem?_eq_getElem (by rw [h.len]; exact hl0), List.getElem?_eq_getElem (by rw [h.len]; exact hl1)]
    simp only
    refine ⟨_, rfl, ?_⟩
    have hpow : (2 : Nat) ^ (L - d) = 2 * 2 ^ (L - (d + 1)) := by
      rw [show L - d = L - (d + 1) + 1 by omega, Nat.pow_succ]; omega
    have hmid : (it.max - it.min) / 2 + it.min = (2 * p + 1) * 2 ^ (L - (d + 1)) := by
      rw [h2, h3, hpow]
      generalize 2 ^ (L - (d + 1)) = k
      have : (p + 1) * (2 * k) - p * (2 * k) = 2 * k := by rw [Nat.add_mul]; omega
      rw [this, Nat.add_mul, Nat.mul_assoc, Nat.mul_left_comm]
      omega
    -- other entries
    have other : ∀ e q, q < 2 ^ e → ¬ (e = d ∧ q = p) → ¬ (e = d + 1 ∧ (q = 2 * p ∨ q = 2 * p + 1)) → ∀ (a b c : WTIter),
        (((its.set (2 ^ d - 1 + p) a).set (2 ^ (d + 1) - 1 + 2 * p) b).set (2 ^ (d + 1) - 1 + (2 * p + 1)) c)[2 ^ e - 1 + q]? = its[2 ^ e - 1 + q]? := by
      intro e q hq n1 n2 a b c
      rw [List.getElem?_set_ne, List.getElem?_set_ne, List.getElem?_set_ne]
      · intro ee; have := heap_inj hp hq ee; exact n1 ⟨this.1.symm, this.2.symm⟩
      · intro ee; have := heap_inj hq0 hq ee; exact n2 ⟨this.1.symm, .inl this.2.symm⟩
      · intro ee; have := heap_inj hq1 hq ee; exact n2 ⟨this.1.symm, .inr this.2.symm⟩
    constructor
    · simp [h.len]
    · intro e q hq hcase
      by_cases hep : e = d ∧ q = p
      · obtain ⟨rfl, rfl⟩ := hep
        rw [List.getElem?_set_ne (Ne.symm hne1), List.getElem?_set_ne (Ne.symm hne0), List.getElem?_set_self (by rw [h.len]; exact hil)]
      · rw [other e q hq hep (by omega)]
        exact h.done e q hq (by omega)
    · intro q hq hpq _
      obtain ⟨it', g1, g2, g3⟩ := h.cur q hq (by omega) hd
      exact ⟨it', by rw [other d q hq (by omega) (by omega)]; exact g1, g2, g3⟩
    · intro q hq hd1 hq2
      by_cases e0 : q = 2 * p
      · subst e0
        refine ⟨_, by rw [List.getElem?_set_ne (by omega), List.getElem?_set_self (by simp [h.len]; exact hl0)], ?_, ?_⟩
        · simp only
          rw [h2, hpow, Nat.mul_comm 2 p, Nat.mul_assoc]
        · simp only
          exact hmid
      · by_cases e1 : q = 2 * p + 1
        · subst e1
          refine ⟨_, by rw [List.getElem?_set_self (by simp [h.len]; exact hl1)], ?_, ?_⟩
          · simp only
            exact hmid
          · simp only
            rw [h3, hpow, show 2 * p + 1 + 1 = (p + 1) * 2 by omega, Nat.mul_assoc]
        · obtain ⟨it', g1, g2, g3⟩ := h.nxt q (by omega) hd1 hq2
          exact ⟨it', by rw [other (d + 1) q hq2 (by omega) (by omega)]; exact g1, g2, g3⟩
  · rename_i hlast
    refine ⟨_, rfl, by simp [h.len], ?_, ?_, ?_⟩
    · intro e q hq hcase
      by_cases hep : e = d ∧ q = p
      · obtain ⟨rfl, rfl⟩ := hep
        rw [List.getElem?_set_self (by rw [h.len]; exact hil)]
      · rw [List.getElem?_set_ne (fun ee => hep (by have := heap_inj hp hq ee; exact ⟨this.1.symm, this.2.symm⟩))]
        exact h.done e q hq (by omega)
    · intro q hq hpq _
      obtain ⟨it', g1, g2, g3⟩ := h.cur q hq (by omega) hd
      exact ⟨it', by rw [List.getElem?_set_ne (by omega)]; exact g1, g2, g3⟩
    · intro q _ hd1
      omega

theorem wtLayer_ok {v : List Nat} {L d : Nat} (hd : d < L) : ∀ (k p : Nat) (its : List WTIter), p + k = 2 ^ d → ItInv v L d p its →
    ∃ its', wtLayer L d (2 ^ d - 1 + p) (noff v L d p) ((List.range' p k).map (ncnt v L d)) its = .ok (2 ^ (d + 1) - 1, its') ∧ ItInv v L (d + 1) 0 its'
  | 0, p, its, hp, h => by
    have e : 2 ^ d - 1 + p = 2 ^ (d + 1) - 1 := by rw [Nat.pow_succ]; have := Nat.two_pow_pos d; omega
    refine ⟨its, by rw [e]; rfl, h.len, ?_, ?_, ?_⟩
    · intro e' q hq hc
      rcases hc with hc | hc
      · by_cases hed : e' = d
        · subst hed
          exact h.done e' q hq (.inr ⟨rfl, by omega⟩)
        · exact h.done e' q hq (.inl (by omega))
      · omega
    · intro q hq _ hd1
      exact h.nxt q (by rw [Nat.pow_succ] at hq; omega) hd1 hq
    · intro q hq; omega
  | k + 1, p, its, hp, h => by
    obtain ⟨its', e1, e2⟩ := wtNode_ok h hd (by omega)
    rw [List.range'_succ, List.map_cons, wtLayer, e1]
    simp only [Except.bind]
    rw [← noff_succ, Nat.add_assoc]
    exact wtLayer_ok hd k (p + 1) its' (by omega) e2

theorem wtIters_ok {v : List Nat} {L : Nat} : ∀ (k d : Nat) (its : List WTIter), d + k = L → ItInv v L d 0 its →
    ∃ its', wtIters L d (2 ^ d - 1) ((List.range' d k).map fun e => (List.range (2 ^ e)).map (ncnt v L e)) its = .ok its' ∧ ItInv v L L 0 its'
  | 0, d, its, hd, h => by
    have : d = L := by omega
    subst this
    exact ⟨its, rfl, h⟩
  | k + 1, d, its, hd, h => by
    obtain ⟨its', e1, e2⟩ := wtLayer_ok (v := v) (show d < L by omega) (2 ^ d) 0 its (by omega) h
    rw [noff_zero, ← List.range_eq_range', Nat.add_zero] at e1
    rw [List.range'_succ, List.map_cons, wtIters, e1]
    simp only [Except.bind]
    exact wtIters_ok k (d + 1) its' (by omega) e2

/-! ## Reading values -/

/-- The iterators above level `d` have delivered `t + 1` values, those from level `d` on `t`. -/
def RdInv (v : List Nat) (L t d : Nat) (its : List WTIter) : Prop :=
  its.length = 2 ^ L - 1 ∧ ∀ e q, e < L → q < 2 ^ e → its[2 ^ e - 1 + q]? = some (iterAt v L (if e < d then t + 1 else t) e q)

theorem wtNext_ok {v : List Nat} {L : Nat} {bvs : List (List Bool)} (hw : WtOk v L bvs) (hv : ∀ x ∈ v, x < 2 ^ L) {t x : Nat} (hx : v[t]? = some x) :
    ∀ (k d : Nat) (its : List WTIter), d + k + 1 = L → RdInv v L t d its → ∃ its', wtNext bvs (k + 1) (2 ^ d - 1 + x >>> (L - d)) its = .ok (x, its') ∧ RdInv v L t L its'
  := by
  intro k
  induction k with
  | zero =>
    intro d its hd h
    have hxl := hv x (List.mem_of_getElem? hx)
    have hp : x >>> (L - d) < 2 ^ d := by
      have := shift_lt hxl (show L - d ≤ L by omega)
      rwa [show L - (L - d) = d by omega] at this
    obtain ⟨bv, b1, b2, b3⟩ := hw.2 d (by omega)
    have hit := h.2 d _ (by omega) hp
    rw [if_neg (by omega)] at hit
    rw [wtNext, hit]
    simp only [iterAt, b1]
    have hb := b3 t x hx
    rw [spos] at hb
    rw [noff, hb]
    simp only
    have hlast : ¬ d < bvs.length - 1 := by rw [hw.1]; omega
    simp only [hlast, if_false]
    have e1 : L - d = 1 := by omega
    have hval : (if x.testBit (L - 1 - d) = true then (x >>> (L - d) + 1) * 2 ^ (L - d) - 1 else x >>> (L - d) * 2 ^ (L - d)) = x := by
      have := testBit_shift x L d (by omega)
      rw [show L - (d + 1) = 0 by omega, Nat.shiftRight_zero, e1] at this
      rw [e1, Nat.pow_one]
      generalize x >>> 1 = k at *
      generalize x.testBit (L - 1 - d) = b at *
      cases b
      · simp only [Bool.false_eq_true, if_false] at *; omega
      · simp only [if_true] at *; omega
    rw [hval]
    refine ⟨_, rfl, by simp [h.1], ?_⟩
    intro e q he hq
    rw [if_pos he]
    by_cases hed : e = d ∧ q = x >>> (L - d)
    · obtain ⟨rfl, rfl⟩ := hed
      rw [List.getElem?_set_self (by rw [h.1]; exact heap_lt he hq)]
      simp only [iterAt, countP_take_succ _ hx, decide_true, if_true, Nat.add_assoc]
      rfl
    · rw [List.getElem?_set_ne (fun ee => hed (by have := heap_inj hp hq ee; exact ⟨this.1.symm, this.2.symm⟩)), h.2 e q he hq]
      split
      · rfl
      · have : e = d := by omega
        subst this
        have hne : ¬ x >>> (L - e) = q := fun ee => hed ⟨rfl, ee.symm⟩
        simp only [iterAt, countP_take_succ _ hx, decide_eq_true_eq, if_neg hne, Nat.add_zero]
  | succ k ih =>
    intro d its hd h
    have hxl := hv x (List.mem_of_getElem? hx)
    have hp : x >>> (L - d) < 2 ^ d := by
      have := shift_lt hxl (show L - d ≤ L by omega)
      rwa [show L - (L - d) = d by omega] at this
    obtain ⟨bv, b1, b2, b3⟩ := hw.2 d (by omega)
    have hit := h.2 d _ (by omega) hp
    rw [if_neg (by omega)] at hit
    rw [wtNext, hit]
    simp only [iterAt, b1]
    have hb := b3 t x hx
    rw [spos] at hb
    rw [noff, hb]
    simp only
    have hlast : d < bvs.length - 1 := by rw [hw.1]; omega
    simp only [hlast, if_true]
    have hch : (if x.testBit (L - 1 - d) then (2 ^ d - 1 + x >>> (L - d)) * 2 + 2 else (2 ^ d - 1 + x >>> (L - d)) * 2 + 1) = 2 ^ (d + 1) - 1 + x >>> (L - (d + 1)) := by
      rw [testBit_shift x L d (by omega), Nat.pow_succ]
      have := Nat.two_pow_pos d
      split <;> omega
    rw [hch]
    apply ih (d + 1) _ (by omega)
    refine ⟨by simp [h.1], ?_⟩
    intro e q he hq
    by_cases hed : e = d ∧ q = x >>> (L - d)
    · obtain ⟨rfl, rfl⟩ := hed
      rw [List.getElem?_set_self (by rw [h.1]; exact heap_lt he hq)]
      simp only [iterAt, countP_take_succ _ hx, decide_true, if_true, Nat.add_assoc, Nat.lt_succ_self]
      rfl
    · rw [List.getElem?_set_ne (fun ee => hed (by have := heap_inj hp hq ee; exact ⟨this.1.symm, this.2.symm⟩)), h.2 e q he hq]
      by_cases h1 : e < d
      · rw [if_pos h1, if_pos (by omega)]
      · by_cases h2 : e = d
        · subst h2
          have hne : ¬ x >>> (L - e) = q := fun ee => hed ⟨rfl, ee.symm⟩
          rw [if_neg h1, if_pos (by omega)]
          simp only [iterAt, countP_take_succ _ hx, decide_eq_true_eq, if_neg hne, Nat.add_zero]
        · rw [if_neg h1, if_neg (by omega)]

theorem count_all_key (v : List Nat) (L : Nat) (hv : ∀ x ∈ v, x < 2 ^ L) (u : List Nat) (hu : ∀ x ∈ u, x ∈ v) : u.countP (fun y => y >>> L = 0) = u.length := by
  rw [List.countP_eq_length]
  intro y hy
  simp only [decide_eq_true_eq]
  rw [Nat.shiftRight_eq_div_pow]
  exact Nat.div_eq_of_lt (hv y (hu y hy))

theorem wtRead_ok {v : List Nat} {L : Nat} {bvs : List (List Bool)} (h0 : 0 < L) (hw : WtOk v L bvs) (hv : ∀ x ∈ v, x < 2 ^ L) : ∀ (k t : Nat) (its : List WTIter),
    t + k = v.length → RdInv v L t 0 its → wtRead bvs (k + 1) its = .ok (v.drop t) := by
  intro k
  induction k with
  | zero =>
    intro t its ht h
    have hit := h.2 0 0 h0 (by simp)
    simp only [Nat.pow_zero, Nat.sub_self, Nat.add_zero, Nat.lt_irrefl, if_false] at hit
    rw [wtRead, hit]
    simp only [iterAt, noff_zero, Nat.sub_zero, ncnt, Nat.zero_add]
    rw [count_all_key v L hv _ (fun x hx => List.mem_of_mem_take hx), count_all_key v L hv v (fun x hx => hx), if_neg (by simp; omega),
      List.drop_eq_nil_of_le (by omega)]
  | succ k ih =>
    intro t its ht h
    have htl : t < v.length := by omega
    have hx : v[t]? = some v[t] := List.getElem?_eq_getElem htl
    have hit := h.2 0 0 h0 (by simp)
    simp only [Nat.pow_zero, Nat.sub_self, Nat.add_zero, Nat.lt_irrefl, if_false] at hit
    rw [wtRead, hit]
    simp only [iterAt, noff_zero, Nat.sub_zero, ncnt, Nat.zero_add]
    rw [count_all_key v L hv _ (fun x hx => List.mem_of_mem_take hx), count_all_key v L hv v (fun x hx => hx), if_pos (by simp; omega)]
    obtain ⟨its', e1, e2⟩ := wtNext_ok hw hv hx (L - 1) 0 its (by omega) h
    have hz : v[t] >>> L = 0 := by
      rw [Nat.shiftRight_eq_div_pow]; exact Nat.div_eq_of_lt (hv _ (List.mem_of_getElem? hx))
    rw [Nat.sub_zero, hz, Nat.pow_zero, show L - 1 + 1 = L by omega] at e1
    rw [hw.1, e1]
    simp only [Except.bind]
    have : RdInv v L (t + 1) 0 its' := by
      refine ⟨e2.1, ?_⟩
      intro e q he hq
      rw [e2.2 e q he hq, if_pos he, if_neg (by omega)]
    rw [ih (t + 1) its' (by omega) this, List.drop_eq_getElem_cons htl]

theorem recoverDxx_ok {v : List Nat} {L : Nat} {bvs : List (List Bool)} (hw : WtOk v L bvs) (hv : ∀ x ∈ v, x < 2 ^ L) : recoverDxx bvs v.length = .ok v := by
  unfold recoverDxx extractWt
  by_cases h0 : L = 0
  · subst h0
    have : bvs = [] := List.length_eq_zero_iff.1 hw.1
    subst this
    simp only [wtSizes, Except.bind, List.length_nil, if_true]
    congr 1
    apply List.ext_getElem?
    intro i
    rw [List.getElem?_replicate]
    split
    · rename_i hi
      rw [List.getElem?_eq_getElem hi]
      have := hv v[i] (List.getElem_mem hi)
      simp at this
      rw [this]
    · rename_i hi
      rw [List.getElem?_eq_none (by omega)]
  · have hs := wtSizes_ok hw (L - 1) 0 (by omega)
    have hn : (List.range (2 ^ 0)).map (ncnt v L 0) = [v.length] := by
      simp only [Nat.pow_zero, List.range_one, List.map_cons, List.map_nil, ncnt, Nat.sub_zero]
      rw [count_all_key v L hv v (fun x hx => hx)]
    rw [hn, List.drop_zero, show L - 1 + 1 = L by omega] at hs
    rw [hs]
    simp only [Except.bind]
    rw [hw.1, if_neg h0]
    have hlast : (((List.range' 0 L).map fun e => (List.range (2 ^ e)).map (ncnt v L e)).getLast?.getD []).length * 2 = 2 ^ L := by
      rw [List.getLast?_eq_getElem?]
      simp only [List.length_map, List.length_range', List.getElem?_map]
      rw [List.getElem?_range' (by omega)]
      simp only [Option.map_some, Option.getD_some, List.length_map, List.length_range]
      rw [← Nat.pow_succ]
      congr 1
      omega
    rw [hlast]
    have hlen1 : 0 < 2 ^ L - 1 := by
      have : (2 : Nat) ^ 1 ≤ 2 ^ L := Nat.pow_le_pow_right (by omega) (by omega)
      omega
    obtain ⟨its', e1, e2⟩ := wtIters_ok (v := v) (L := L) L 0 ((List.replicate (2 ^ L - 1) (⟨0, 0, 0, 0, 0⟩ : WTIter)).set 0 ⟨0, 0, 0, 0, 2 ^ L⟩) (by omega) (by
      refine ⟨by simp, ?_, ?_, ?_⟩
      · intro e q _ h; omega
      · intro q hq _ _
        have : q = 0 := by simpa using hq
        subst this
        refine ⟨_, by rw [Nat.pow_zero, Nat.sub_self, Nat.add_zero, List.getElem?_set_self (by simpa using hlen1)], ?_, ?_⟩
        · simp
        · simp
      · intro q hq; omega)
    rw [Nat.pow_zero, Nat.sub_self] at e1
    rw [e1]
    simp only
    have hr : RdInv v L 0 0 its' := ⟨e2.len, fun e q he hq => e2.done e q hq (.inl he)⟩
    have := wtRead_ok (by omega) hw hv v.length 0 its' (by omega) hr
    rw [this, List.drop_zero]

/-! ## The coder -/

theorem rdBitList_ok : ∀ (l rest : List Bool), rdBitList l.length (l ++ rest) = (l, rest)
  | [], rest => rfl
  | b :: l, rest => by
    rw [List.length_cons, rdBitList, List.cons_append]
    simp only [rdBit]
    rw [rdBitList_ok l rest]

theorem rdWt_ok (n : Nat) : ∀ (bvs : List (List Bool)) (rest : List Bool), (∀ bv ∈ bvs, bv.length = n) → rdWt n bvs.length (bvs.flatten ++ rest) = (bvs, rest)
  | [], rest, _ => rfl
  | bv :: bvs, rest, h => by
    rw [List.length_cons, rdWt, List.flatten_cons, List.append_assoc]
    have hb := h bv (by simp)
    subst hb
    rw [rdBitList_ok]
    simp only
    rw [rdWt_ok _ bvs rest (fun b hb => h b (by simp [hb]))]

theorem wt_roundtrip (mx : Nat) (l : List Nat) (hmx : mx < 2 ^ 30) (hl : ∀ x ∈ l, x ≤ mx) (w w' mx' : Nat) :
    ∃ bits, DWaveletTree.enc w mx l = .ok bits ∧ ∀ rest, DWaveletTree.dec w' mx' l.length (bits ++ rest) = .ok (l, rest) := by
  obtain ⟨bvs, e1, e2⟩ := makeWt_ok l mx hmx hl
  obtain ⟨d1, d2⟩ := wtDepth_spec mx
  have d3 := d2 30 hmx
  refine ⟨_, by simp only [DWaveletTree, e1, Except.bind]; rfl, ?_⟩
  intro rest
  have hlen : ∀ bv ∈ bvs, bv.length = l.length := by
    intro bv hb
    obtain ⟨d, hd⟩ := List.getElem?_of_mem hb
    obtain ⟨bv', h1, h2, _⟩ := e2.2 d (by rw [← e2.1]; exact (List.getElem?_eq_some_iff.1 hd).1)
    rw [hd] at h1
    simp only [Option.some.injEq] at h1
    rw [h1]; exact h2
  simp only [DWaveletTree, List.append_assoc]
  rw [rdCInt_writeCInt _ 7 _ (by omega) (by omega) (by rw [e2.1]; omega)]
  simp only [Except.bind]
  rw [rdWt_ok _ _ _ hlen]
  simp only
  rw [recoverDxx_ok e2 (fun x hx => by have := hl x hx; omega)]

end Esp
end Tdc
