import Verif.Model.CompactHash
import Mathlib.Tactic.Linarith
import Mathlib.Data.Nat.Bitwise

/-!
# The sparse layer of the compact hash table is an array of optional entries
-/

namespace Tdc.CSH

theorem rank_succ (bv i : Nat) : rank bv (i + 1) = rank bv i + (bv.testBit i).toNat := by
  simp only [rank, List.range_succ, List.filter_append, List.length_append]
  cases h : bv.testBit i <;> simp [h]

theorem rank_mono (bv : Nat) {i j : Nat} (h : i ≤ j) : rank bv i ≤ rank bv j := by
  induction j, h using Nat.le_induction with
  | base => exact Nat.le_refl _
  | succ j _ ih => rw [rank_succ]; omega

theorem rank_lt (bv : Nat) {i j : Nat} (h : i < j) (hb : bv.testBit i = true) : rank bv i < rank bv j := by
  have := rank_mono bv (Nat.succ_le_of_lt h)
  rw [Nat.succ_eq_add_one, rank_succ, hb] at this
  simp at this; omega

theorem rank_congr {a b : Nat} {i : Nat} (h : ∀ j < i, a.testBit j = b.testBit j) : rank a i = rank b i := by
  induction i with
  | zero => rfl
  | succ i ih => rw [rank_succ, rank_succ, ih (fun j hj => h j (by omega)), h i (by omega)]

theorem rank_set (bv i j : Nat) (h : bv.testBit i = false) :
    rank (bv ||| 2 ^ i) j = if j ≤ i then rank bv j else rank bv j + 1 := by
  induction j with
  | zero => simp [rank]
  | succ j ih =>
    rw [rank_succ, rank_succ, ih, Nat.testBit_or, Nat.testBit_two_pow]
    by_cases h1 : j < i
    · have : i ≠ j := by omega
      simp [this, show j ≤ i by omega, show j + 1 ≤ i by omega]
    · by_cases h2 : j = i
      · subst h2; simp [h]
      · have : i ≠ j := by omega
        simp [this, show ¬ j ≤ i by omega, show ¬ j + 1 ≤ i by omega]; omega

/-- The bit vector of a bucket. -/
def bvAt (t : Tab) (b : Nat) : Nat := match t.buckets[b]? with | some x => x.bv | none => 0

/-- What is stored at a position. -/
def slot (t : Tab) (p : Nat) : Option (Nat × Nat) :=
  match t.buckets[p / 64]? with
  | some b => if b.bv.testBit (p % 64) then b.elems[rank b.bv (p % 64)]? else none
  | none => none

/-- Where it is stored. -/
def loc (t : Tab) (p : Nat) : Handle := (p / 64, rank (bvAt t (p / 64)) (p % 64))

/-- Consistency of the sparse layer. -/
structure WF (t : Tab) : Prop where
  nb : t.buckets.length = nBuckets
  elems : ∀ (i : Nat) (b : Bucket), t.buckets[i]? = some b → b.elems.length = rank b.bv 64

theorem vget_ok {α : Type} {l : List α} {i : Nat} {a : α} (h : l[i]? = some a) : vget l i = .ok a := by
  simp [vget, h]

theorem vget_err {α : Type} {l : List α} {i : Nat} (h : l.length ≤ i) : vget l i = .error .ub := by
  simp [vget, List.getElem?_eq_none h]

theorem vset_ok {α : Type} {l : List α} {i : Nat} (a : α) (h : i < l.length) : vset l i a = .ok (l.set i a) := by
  simp [vset, h]

@[simp] theorem bind_ok {α β : Type} (a : α) (f : α → Res β) : (Except.ok a : Res α).bind f = f a := rfl
@[simp] theorem bind_error {α β : Type} (e : Fault) (f : α → Res β) : (Except.error e : Res α).bind f = .error e := rfl

theorem bind_eq_ok {α β : Type} {x : Res α} {f : α → Res β} {b : β} :
    x.bind f = .ok b ↔ ∃ a, x = .ok a ∧ f a = .ok b := by
  cases x with
  | error e => simp
  | ok a => simp

theorem nBuckets_eq : nBuckets = 4032 := by decide

variable {t : Tab}

theorem WF.get (wf : WF t) {b : Nat} (h : b < 4032) : ∃ x, t.buckets[b]? = some x ∧ bvAt t b = x.bv ∧
    x.elems.length = rank x.bv 64 := by
  have : b < t.buckets.length := by rw [wf.nb, nBuckets_eq]; exact h
  obtain ⟨x, hx⟩ : ∃ x, t.buckets[b]? = some x := ⟨_, List.getElem?_eq_getElem this⟩
  exact ⟨x, hx, by simp [bvAt, hx], wf.elems b x hx⟩

theorem spos_ok (wf : WF t) {p : Nat} (h : p / 64 < 4032) :
    spos t p = .ok ⟨p / 64, p % 64, (slot t p).isSome, (loc t p).2⟩ := by
  obtain ⟨x, hx, h1, h2⟩ := wf.get h
  rw [spos, vget_ok hx, bind_ok]
  simp only [loc, h1, slot, hx]
  by_cases hb : x.bv.testBit (p % 64)
  · rw [if_pos hb, hb, List.getElem?_eq_getElem]
    · rfl
    · rw [h2]; exact rank_lt _ (Nat.mod_lt _ (by decide)) hb
  · rw [if_neg hb]; simp [hb]

theorem spos_err (wf : WF t) {p : Nat} (h : 4032 ≤ p / 64) : spos t p = .error .ub := by
  rw [spos, vget_err (by rw [wf.nb, nBuckets_eq]; exact h), bind_error]

theorem sexists_ok (wf : WF t) {p : Nat} (h : p / 64 < 4032) : sexists t p = .ok (slot t p).isSome := by
  rw [sexists, spos_ok wf h, bind_ok]

theorem slot_isSome (wf : WF t) {p : Nat} (h : (slot t p).isSome) :
    p / 64 < 4032 ∧ (bvAt t (p / 64)).testBit (p % 64) = true := by
  by_cases hp : p / 64 < 4032
  · refine ⟨hp, ?_⟩
    obtain ⟨x, hx, h1, h2⟩ := wf.get hp
    rw [h1]
    by_contra hb
    simp [slot, hx, hb] at h
  · have : t.buckets[p / 64]? = none := List.getElem?_eq_none (by rw [wf.nb, nBuckets_eq]; omega)
    simp [slot, this] at h

theorem slot_iff (wf : WF t) {p : Nat} (hp : p / 64 < 4032) :
    (slot t p).isSome = (bvAt t (p / 64)).testBit (p % 64) := by
  have := spos_ok wf hp
  obtain ⟨x, hx, h1, h2⟩ := wf.get hp
  rw [spos, vget_ok hx, bind_ok] at this
  simp only [Except.ok.injEq, SPos.mk.injEq] at this
  rw [h1]; exact this.2.2.1.symm

theorem hget_loc (wf : WF t) {p : Nat} {e : Nat × Nat} (h : slot t p = some e) : hget t (loc t p) = .ok e := by
  obtain ⟨hp, hb⟩ := slot_isSome wf (by rw [h]; rfl)
  obtain ⟨x, hx, h1, h2⟩ := wf.get hp
  rw [hget, loc]
  simp only [vget_ok hx, bind_ok, h1]
  rw [h1] at hb
  simp only [slot, hx, hb, if_true] at h
  exact vget_ok h

/-- Two tables with the same shape: only the stored entries may differ. -/
structure Same (t t' : Tab) : Prop where
  log : t'.log = t.log
  size : t'.size = t.size
  width : t'.width = t.width
  v : t'.v = t.v
  c : t'.c = t.c
  bv : ∀ b, bvAt t' b = bvAt t b

theorem Same.refl (t : Tab) : Same t t := ⟨rfl, rfl, rfl, rfl, rfl, fun _ => rfl⟩

theorem Same.trans {a b c : Tab} (h : Same a b) (k : Same b c) : Same a c :=
  ⟨k.log.trans h.log, k.size.trans h.size, k.width.trans h.width, k.v.trans h.v, k.c.trans h.c,
    fun i => (k.bv i).trans (h.bv i)⟩

theorem Same.loc {t t' : Tab} (h : Same t t') (p : Nat) : loc t' p = loc t p := by
  simp only [CSH.loc, h.bv]

theorem loc_inj (wf : WF t) {p q : Nat} (hp : (slot t p).isSome) (hq : (slot t q).isSome)
    (h : loc t p = loc t q) : p = q := by
  obtain ⟨p1, p2⟩ := slot_isSome wf hp
  obtain ⟨q1, q2⟩ := slot_isSome wf hq
  simp only [loc, Prod.mk.injEq] at h
  obtain ⟨h1, h2⟩ := h
  rw [← h1] at h2 q2
  have : p % 64 = q % 64 := by
    rcases Nat.lt_trichotomy (p % 64) (q % 64) with h | h | h
    · have := rank_lt _ h p2; omega
    · exact h
    · have := rank_lt _ h q2; omega
  omega

theorem hset_loc (wf : WF t) {p : Nat} (e : Nat × Nat) (h : (slot t p).isSome) :
    ∃ t', hset t (loc t p) e = .ok t' ∧ Same t t' ∧ WF t' ∧ ∀ q, slot t' q = if q = p then some e else slot t q := by
  obtain ⟨hp, hb⟩ := slot_isSome wf h
  obtain ⟨x, hx, h1, h2⟩ := wf.get hp
  rw [h1] at hb
  have hr : rank x.bv (p % 64) < x.elems.length := by rw [h2]; exact rank_lt _ (Nat.mod_lt _ (by decide)) hb
  have hl : p / 64 < t.buckets.length := by rw [wf.nb, nBuckets_eq]; exact hp
  refine ⟨{ t with buckets := t.buckets.set (p / 64) { x with elems := x.elems.set (rank x.bv (p % 64)) e } }, ?_, ?_, ?_, ?_⟩
  · rw [hset, loc]
    simp only [vget_ok hx, bind_ok, h1]
    rw [vset_ok _ hr, bind_ok]
  · refine ⟨rfl, rfl, rfl, rfl, rfl, fun b => ?_⟩
    simp only [bvAt, List.getElem?_set]
    by_cases hpb : p / 64 = b
    · subst hpb; simp only [hl, if_true, hx]
    · simp [hpb]
  · refine ⟨by simpa using wf.nb, fun i b hi => ?_⟩
    simp only [List.getElem?_set] at hi
    by_cases hpb : p / 64 = i
    · subst hpb; simp [hl] at hi; subst hi; simpa using h2
    · simp [hpb] at hi; exact wf.elems i b hi
  · intro q
    simp only [slot, List.getElem?_set]
    by_cases hpb : p / 64 = q / 64
    · rw [← hpb]
      simp only [hl, if_true, hx]
      by_cases hqp : q = p
      · subst hqp; simp [hb, hr]
      · rw [if_neg hqp]
        by_cases hbq : x.bv.testBit (q % 64)
        · simp only [hbq, if_true, List.getElem?_set]
          rw [if_neg]
          intro hc
          have : p % 64 = q % 64 := by
            rcases Nat.lt_trichotomy (p % 64) (q % 64) with h | h | h
            · have := rank_lt _ h hb; omega
            · exact h
            · have := rank_lt _ h hbq; omega
          omega
        · simp [hbq]
    · have : q ≠ p := by rintro rfl; exact hpb rfl
      simp [hpb, this]

/-! ## Insertion at an empty position -/

theorem rotLoop_spec (a : Nat) (tmp : Nat × Nat) : ∀ (k : Nat) (l : List (Nat × Nat)), a + k < l.length →
    rotLoop a tmp k l = .ok (l.take a ++ tmp :: ((l.drop a).take k ++ l.drop (a + k + 1)))
  | 0, l, h => by
    rw [rotLoop, vset_ok _ (by omega), List.set_eq_take_append_cons_drop, if_pos (by omega)]
    simp
  | k + 1, l, h => by
    rw [rotLoop, vget_ok (List.getElem?_eq_getElem (by omega)), bind_ok, vset_ok _ (by omega), bind_ok,
      rotLoop_spec a tmp k _ (by simp; omega)]
    congr 1
    apply List.ext_getElem?
    intro i
    simp only [List.getElem?_append, List.getElem?_cons, List.getElem?_take, List.getElem?_drop, List.getElem?_set,
      List.length_take, List.length_set, List.length_drop]
    rw [show min a l.length = a by omega, show min k (l.length - a) = k by omega,
      show min (k + 1) (l.length - a) = k + 1 by omega]
    by_cases h1 : i < a
    · simp [h1, show ¬ a + (k + 1) = i by omega]
    · by_cases h2 : i - a = 0
      · simp [h1, h2]
      · by_cases h3 : i - a - 1 < k
        · simp only [h1, h2, h3, if_true, if_false, show i - a - 1 < k + 1 by omega]
          rw [if_neg (by omega)]
        · by_cases h4 : i - a - 1 = k
          · have e1 : a + (k + 1) = a + k + 1 + (i - a - 1 - k) := by omega
            simp only [h1, h2, if_false, h3, h4]
            have e2 : a + k + 1 + (k - k) = a + (k + 1) := by omega
            rw [e2]
            simp [show a + (k + 1) < l.length by omega]
          · simp only [h1, h2, if_false, h3, show ¬ i - a - 1 < k + 1 by omega]
            rw [if_neg (by omega)]
            congr 1; omega

theorem rotateEndTo_spec (l : List (Nat × Nat)) (e : Nat × Nat) (pos : Nat) (h : pos ≤ l.length) :
    rotateEndTo (l ++ [e]) pos = .ok (l.take pos ++ e :: l.drop pos) := by
  have h0 : (l ++ [e])[(l ++ [e]).length - 1]? = some e := by simp
  rw [rotateEndTo, vget_ok h0, bind_ok, if_pos (by simpa using h), rotLoop_spec _ _ _ _ (by simp; omega)]
  congr 2
  · rw [List.take_append_of_le_length h]
  · congr 1
    rw [List.drop_append_of_le_length h, show pos + ((l ++ [e]).length - 1 - pos) + 1 = (l ++ [e]).length by simp; omega,
      List.drop_length, List.append_nil, List.take_append_of_le_length (by simp), List.take_of_length_le (by simp)]

theorem setAtEmpty_spec (wf : WF t) {p : Nat} (q x : Nat) (hp : p / 64 < 4032) (h : slot t p = none) :
    ∃ t', setAtEmpty t p q x = .ok (t', loc t' p) ∧ WF t' ∧ t'.log = t.log ∧ t'.size = t.size ∧ t'.width = t.width ∧
      t'.v = t.v ∧ t'.c = t.c ∧ (∀ r, slot t' r = if r = p then some (q, x) else slot t r) ∧
      (∀ r, r < p ∨ r / 64 ≠ p / 64 → loc t' r = loc t r) := by
  obtain ⟨b, hb, h1, h2⟩ := wf.get hp
  have hnb : b.bv.testBit (p % 64) = false := by
    have := slot_iff wf hp; rw [h, h1] at this; simpa using this.symm
  have hl : p / 64 < t.buckets.length := by rw [wf.nb, nBuckets_eq]; exact hp
  have hr : rank b.bv (p % 64) ≤ b.elems.length := by
    rw [h2]; exact rank_mono _ (Nat.le_of_lt (Nat.mod_lt _ (by decide)))
  set r0 := rank b.bv (p % 64) with hr0
  set es := b.elems.take r0 ++ (q, x) :: b.elems.drop r0 with hes
  have hloc' : loc { t with buckets := t.buckets.set (p / 64) ⟨b.bv ||| 2 ^ (p % 64), es⟩ } p = (p / 64, r0) := by
    simp only [loc, bvAt, List.getElem?_set, hl, if_true, rank_set _ _ _ hnb, le_refl, hr0]
  refine ⟨{ t with buckets := t.buckets.set (p / 64) ⟨b.bv ||| 2 ^ (p % 64), es⟩ }, ?_, ?_, rfl, rfl, rfl, rfl, rfl, ?_, ?_⟩
  · rw [setAtEmpty, spos_ok wf hp, bind_ok]
    simp only [h, Option.isSome_none, if_false, vget_ok hb, bind_ok, loc, h1, ← hr0]
    simp only [Bool.false_eq_true, if_false]
    rw [rotateEndTo_spec _ _ _ hr, bind_ok]
    simp only [Except.ok.injEq, Prod.mk.injEq, true_and, ← hes]
    have := hloc'
    simp only [loc, Prod.mk.injEq] at this
    exact this.2.symm
  · refine ⟨by simpa using wf.nb, fun i b' hi => ?_⟩
    simp only [List.getElem?_set] at hi
    by_cases hpb : p / 64 = i
    · subst hpb; simp [hl] at hi; subst hi
      simp only [rank_set _ _ _ hnb, hes, List.length_append, List.length_take, List.length_cons, List.length_drop]
      have : p % 64 < 64 := Nat.mod_lt _ (by decide)
      rw [if_neg (by omega)]; omega
    · simp [hpb] at hi; exact wf.elems i b' hi
  · intro r
    simp only [slot, List.getElem?_set]
    by_cases hpb : p / 64 = r / 64
    · rw [← hpb]
      simp only [hl, if_true, hb, Nat.testBit_or, Nat.testBit_two_pow, rank_set _ _ _ hnb]
      by_cases hrp : r = p
      · subst hrp
        simp only [decide_true, Bool.or_true, if_true, le_refl, ← hr0, hes]
        rw [List.getElem?_append_right (by simp)]
        simp [Nat.min_eq_left hr]
      · rw [if_neg hrp]
        have hne : p % 64 ≠ r % 64 := by omega
        simp only [hne, decide_false, Bool.or_false]
        by_cases hbr : b.bv.testBit (r % 64)
        · simp only [hbr, if_true, hes]
          rcases Nat.lt_or_gt_of_ne hne with hlt | hgt
          · have : r0 ≤ rank b.bv (r % 64) := rank_mono _ (by omega)
            rw [if_neg (by omega), List.getElem?_append_right (by simp; omega)]
            simp only [List.length_take, Nat.min_eq_left hr]
            rw [show rank b.bv (r % 64) + 1 - r0 = (rank b.bv (r % 64) - r0) + 1 by omega]
            simp only [List.getElem?_cons_succ, List.getElem?_drop]
            congr 1; omega
          · have : rank b.bv (r % 64) < r0 := rank_lt _ hgt hbr
            rw [if_pos (by omega), List.getElem?_append_left (by simp; omega), List.getElem?_take, if_pos this]
        · simp [hbr]
    · have : r ≠ p := by rintro rfl; exact hpb rfl
      simp [hpb, this]
  · intro r hr'
    simp only [loc, bvAt, List.getElem?_set]
    by_cases hpb : p / 64 = r / 64
    · have : r % 64 ≤ p % 64 := by omega
      simp only [hpb, if_true, show r / 64 < t.buckets.length by omega]
      rw [← hpb, hb]
      simp only [rank_set _ _ _ hnb, if_pos this]
    · simp [hpb]

/-! ## Shifting -/

theorem iterDec_spec (wf : WF t) {p : Nat} (h : (slot t p).isSome) : iterDec t (loc t (p + 1)) = .ok (loc t p) := by
  obtain ⟨hp, hb⟩ := slot_isSome wf h
  obtain ⟨b, hx, h1, h2⟩ := wf.get hp
  by_cases hm : (p + 1) / 64 = p / 64
  · have e : (p + 1) % 64 = p % 64 + 1 := by omega
    simp only [iterDec, loc, hm, e, rank_succ, hb]
    simp
  · have e1 : (p + 1) / 64 = p / 64 + 1 := by omega
    have e2 : (p + 1) % 64 = 0 := by omega
    have e3 : p % 64 = 63 := by omega
    rw [h1, e3] at hb
    simp only [iterDec, loc, e1, e2, rank, List.range_zero, List.filter_nil, List.length_nil, ne_eq, not_true, if_false]
    rw [prevBucket, vget_ok hx, bind_ok, if_neg]
    · simp only [h1, e3]
      have := rank_succ b.bv 63
      rw [hb] at this
      rw [this]; simp [rank]
    · rintro h0; rw [h0] at hb; simp at hb

theorem slot_same {t t' : Tab} (wf : WF t) (wf' : WF t') (h : Same t t') (p : Nat) :
    (slot t' p).isSome = (slot t p).isSome := by
  by_cases hp : p / 64 < 4032
  · rw [slot_iff wf hp, slot_iff wf' hp, h.bv]
  · have h1 : ∀ t, WF t → (slot t p).isSome = false := by
      intro t wf
      by_contra hc
      exact hp (slot_isSome wf (by simpa [Option.isSome_iff_ne_none] using hc)).1
    rw [h1 t wf, h1 t' wf']

theorem shiftLoop_spec (frm : Nat) : ∀ (k fuel : Nat) (t : Tab), WF t → k < fuel →
    (∀ p, frm ≤ p → p ≤ frm + k → (slot t p).isSome) →
    ∃ t', shiftLoop (loc t frm) fuel t (loc t (frm + k)) (loc t (frm + k + 1)) = .ok t' ∧ Same t t' ∧ WF t' ∧
      ∀ p, slot t' p = if frm < p ∧ p ≤ frm + k then slot t (p - 1) else slot t p
  | 0, fuel + 1, t, wf, _, _ => by
    refine ⟨t, by simp [shiftLoop], Same.refl t, wf, fun p => ?_⟩
    rw [if_neg (by omega)]
  | k + 1, fuel + 1, t, wf, hf, hs => by
    have hne : loc t (frm + (k + 1)) ≠ loc t frm := by
      intro hc
      have := loc_inj wf (hs _ (by omega) (by omega)) (hs _ (by omega) (by omega)) hc
      omega
    obtain ⟨e, he⟩ := Option.isSome_iff_exists.mp (hs (frm + k) (by omega) (by omega))
    obtain ⟨t1, h1, s1, wf1, sl1⟩ := hset_loc wf e (hs (frm + k + 1) (by omega) (by omega))
    obtain ⟨t2, h2, s2, wf2, sl2⟩ := shiftLoop_spec frm k fuel t1 wf1 (by omega)
      (fun p a b => by rw [slot_same wf wf1 s1]; exact hs p a (by omega))
    refine ⟨t2, ?_, s1.trans s2, wf2, fun p => ?_⟩
    · rw [shiftLoop, if_neg hne]
      rw [show frm + (k + 1) = frm + k + 1 by omega, iterDec_spec wf (hs _ (by omega) (by omega)), bind_ok,
        iterDec_spec wf (hs _ (by omega) (by omega)), bind_ok, hget_loc wf he, bind_ok, h1, bind_ok]
      rw [s1.loc, s1.loc, s1.loc] at h2
      exact h2
    · rw [sl2]
      by_cases hp : frm < p ∧ p ≤ frm + k
      · rw [if_pos hp, if_pos (by omega), sl1, if_neg (by omega)]
      · rw [if_neg hp, sl1]
        by_cases hp2 : p = frm + k + 1
        · rw [if_pos hp2, if_pos (by omega), hp2]; simp [he]
        · rw [if_neg hp2, if_neg (by omega)]

theorem sshift_spec (wf : WF t) {frm en : Nat} (q x : Nat) {e : Nat × Nat} (hlt : frm < en) (hto : en ≤ t.cap)
    (hto2 : en / 64 < 4032) (hs : ∀ p, frm ≤ p → p < en → (slot t p).isSome) (he : slot t (en - 1) = some e) :
    ∃ t' l, sshift t frm en q x = .ok (t', l, e.1, e.2) ∧ (l.bkt, l.off) = loc t frm ∧ Same t t' ∧ WF t' ∧
      ∀ p, slot t' p = if p = frm then some (q, x) else if frm < p ∧ p < en then slot t (p - 1) else slot t p := by
  have hb : en - 1 ≤ en := by omega
  have hb1 : (en - 1) / 64 < 4032 := by omega
  have hb2 : frm / 64 < 4032 := by omega
  have hw : (en + 2 ^ 64 - 1) % 2 ^ 64 = en - 1 := by
    have : en < 2 ^ 64 := by omega
    omega
  obtain ⟨t1, h1, s1, wf1, sl1⟩ := shiftLoop_spec frm (en - 1 - frm) (t.cap + 1) t wf (by omega)
    (fun p a b => hs p a (by omega))
  rw [show frm + (en - 1 - frm) = en - 1 by omega, show en - 1 + 1 = en by omega] at h1
  obtain ⟨t2, h2, s2, wf2, sl2⟩ := hset_loc (p := frm) wf1 (q, x)
    (by rw [slot_same wf wf1 s1]; exact hs frm (by omega) hlt)
  refine ⟨t2, ⟨frm / 64, frm % 64, (slot t frm).isSome, (loc t frm).2⟩, ?_, rfl, s1.trans s2, wf2, fun p => ?_⟩
  · rw [sshift, spos_ok wf hb2, bind_ok, hw, spos_ok wf hb1, bind_ok, spos_ok wf hto2, bind_ok]
    have e1 : ∀ p, (p / 64, (loc t p).2) = loc t p := fun p => rfl
    simp only [e1]
    rw [hget_loc wf he, bind_ok, h1, bind_ok]
    rw [s1.loc] at h2
    rw [h2, bind_ok]
  · rw [sl2]
    by_cases hp : p = frm
    · simp [hp]
    · rw [if_neg hp, if_neg hp, sl1]
      by_cases hp2 : frm < p ∧ p < en
      · rw [if_pos (by omega), if_pos hp2]
      · rw [if_neg (by omega), if_neg hp2]

theorem sshift_zero (wf : WF t) (frm q x : Nat) : sshift t frm 0 q x = .error .ub := by
  have h2 : spos t ((0 + 2 ^ 64 - 1) % 2 ^ 64) = .error .ub := spos_err wf (by decide)
  rw [sshift, h2]
  cases h : spos t frm with
  | ok a => simp
  | error e =>
    rw [spos] at h
    cases hb : t.buckets[frm / 64]? <;> simp [vget, hb] at h
    simp [h]

/-- Insert `a` at position `n` of a circular array of length `cap`, moving the entries of `[n, t)` one to the right. -/
def circIns {α : Type} (cap : Nat) (f : Nat → α) (n t : Nat) (a : α) (p : Nat) : α :=
  if (p + cap - n) % cap = 0 then a
  else if (p + cap - n) % cap ≤ (t + cap - n) % cap then f ((p + cap - 1) % cap)
  else f p

theorem circIns_lt {α : Type} {cap n t p : Nat} (f : Nat → α) (a : α) (hn : n ≤ t) (ht : t < cap) (hp : p < cap) :
    circIns cap f n t a p = if p = n then a else if n < p ∧ p ≤ t then f (p - 1) else f p := by
  have e2 : (t + cap - n) % cap = t - n := by
    rw [show t + cap - n = t - n + cap by omega, Nat.add_mod_right, Nat.mod_eq_of_lt (by omega)]
  rw [circIns, e2]
  by_cases h1 : n ≤ p
  · have e1 : (p + cap - n) % cap = p - n := by
      rw [show p + cap - n = p - n + cap by omega, Nat.add_mod_right, Nat.mod_eq_of_lt (by omega)]
    rw [e1]
    by_cases h2 : p = n
    · simp [h2]
    · rw [if_neg (by omega), if_neg h2]
      by_cases h3 : p ≤ t
      · rw [if_pos (by omega), if_pos (by omega)]
        congr 1
        rw [show p + cap - 1 = p - 1 + cap by omega, Nat.add_mod_right, Nat.mod_eq_of_lt (by omega)]
      · rw [if_neg (by omega), if_neg (by omega)]
  · have e1 : (p + cap - n) % cap = p + cap - n := Nat.mod_eq_of_lt (by omega)
    rw [e1, if_neg (by omega), if_neg (by omega), if_neg (by omega), if_neg (by omega)]

theorem circIns_wrap {α : Type} {cap n t p : Nat} (f : Nat → α) (a : α) (hn : t < n) (ht : n < cap) (hp : p < cap) :
    circIns cap f n t a p =
      if p = n then a else if n < p ∨ (0 < p ∧ p ≤ t) then f (p - 1) else if p = 0 then f (cap - 1) else f p := by
  have e2 : (t + cap - n) % cap = t + cap - n := Nat.mod_eq_of_lt (by omega)
  rw [circIns, e2]
  by_cases h1 : n ≤ p
  · have e1 : (p + cap - n) % cap = p - n := by
      rw [show p + cap - n = p - n + cap by omega, Nat.add_mod_right, Nat.mod_eq_of_lt (by omega)]
    rw [e1]
    by_cases h2 : p = n
    · simp [h2]
    · rw [if_neg (by omega), if_neg h2, if_pos (by omega), if_pos (by omega)]
      congr 1
      rw [show p + cap - 1 = p - 1 + cap by omega, Nat.add_mod_right, Nat.mod_eq_of_lt (by omega)]
  · have e1 : (p + cap - n) % cap = p + cap - n := Nat.mod_eq_of_lt (by omega)
    rw [e1, if_neg (by omega), if_neg (by omega : ¬ p = n)]
    by_cases h0 : p = 0
    · subst h0
      rw [if_pos (by omega), if_neg (by omega)]
      simp only [if_true]
      congr 1
      rw [Nat.zero_add]
      exact Nat.mod_eq_of_lt (by omega)
    · by_cases h3 : p ≤ t
      · rw [if_pos (by omega), if_pos (by omega)]
        congr 1
        rw [show p + cap - 1 = p - 1 + cap by omega, Nat.add_mod_right, Nat.mod_eq_of_lt (by omega)]
      · rw [if_neg (by omega), if_neg (by omega), if_neg h0]

theorem cap_pos (t : Tab) : 0 < t.cap := Nat.pow_pos (by decide)

/-- Inserting in the sparse layer. -/
theorem shiftInsertSparse_spec (wf : WF t) {n en : Nat} (q x : Nat) (hn : n < t.cap) (ht : en < t.cap) (hne : n ≠ en)
    (hcap : t.cap / 64 < 4032) (hto : slot t en = none)
    (hs : ∀ p < t.cap, (p + t.cap - n) % t.cap < (en + t.cap - n) % t.cap → (slot t p).isSome) :
    (en = 0 → shiftInsertSparse t n en q x = .error .ub) ∧
    (en ≠ 0 → ∃ t' h, shiftInsertSparse t n en q x = .ok (t', h) ∧ WF t' ∧ t'.log = t.log ∧ t'.size = t.size ∧
      t'.width = t.width ∧ t'.v = t.v ∧ t'.c = t.c ∧
      (∀ p < t.cap, slot t' p = circIns t.cap (slot t) n en (some (q, x)) p) ∧
      (∀ p, t.cap ≤ p → slot t' p = slot t p) ∧
      (n < en ∨ n / 64 ≠ en / 64 → h = loc t' n)) := by
  have hto2 : en / 64 < 4032 := by
    have := Nat.div_le_div_right (c := 64) (Nat.le_of_lt ht); omega
  rcases Nat.lt_or_gt_of_ne hne with hlt | hgt
  · -- no wrap around
    refine ⟨fun h0 => by omega, fun _ => ?_⟩
    have hs' : ∀ p, n ≤ p → p < en → (slot t p).isSome := by
      intro p a b
      refine hs p (by omega) ?_
      rw [show p + t.cap - n = p - n + t.cap by omega, show en + t.cap - n = en - n + t.cap by omega,
        Nat.add_mod_right, Nat.add_mod_right, Nat.mod_eq_of_lt (by omega), Nat.mod_eq_of_lt (by omega)]
      omega
    obtain ⟨e, he⟩ := Option.isSome_iff_exists.mp (hs' (en - 1) (by omega) (by omega))
    obtain ⟨t1, l, h1, hl, s1, wf1, sl1⟩ := sshift_spec wf q x hlt (by omega) hto2 hs' he
    have hto1 : slot t1 en = none := by rw [sl1, if_neg (by omega), if_neg (by omega)]; exact hto
    obtain ⟨t2, h2, wf2, a1, a2, a3, a4, a5, sl2, lo2⟩ := setAtEmpty_spec wf1 e.1 e.2 hto2 hto1
    refine ⟨t2, loc t n, ?_, wf2, a1.trans s1.log, a2.trans s1.size, a3.trans s1.width, a4.trans s1.v, a5.trans s1.c, ?_, ?_, ?_⟩
    · rw [shiftInsertSparse, if_neg (by omega), h1, bind_ok]
      simp only
      rw [h2, bind_ok]
      simp only
      rw [hl]
    · intro p hp
      rw [sl2, circIns_lt _ _ (by omega) ht hp]
      by_cases hp1 : p = en
      · subst hp1
        rw [if_pos rfl, if_neg (by omega), if_pos (by omega), he]
      · rw [if_neg hp1, sl1]
        by_cases hp2 : p = n
        · simp [hp2]
        · rw [if_neg hp2, if_neg hp2]
          by_cases hp3 : n < p ∧ p < en
          · rw [if_pos hp3, if_pos (by omega)]
          · rw [if_neg hp3, if_neg (by omega)]
    · intro p hp
      rw [sl2, if_neg (by omega), sl1, if_neg (by omega), if_neg (by omega)]
    · intro _
      rw [lo2 n (Or.inl hlt), s1.loc]
  · -- wrap around
    have e2 : (en + t.cap - n) % t.cap = en + t.cap - n := Nat.mod_eq_of_lt (by omega)
    rw [e2] at hs
    have hsA : ∀ p, n ≤ p → p < t.cap → (slot t p).isSome := by
      intro p a b
      refine hs p b ?_
      rw [show p + t.cap - n = p - n + t.cap by omega, Nat.add_mod_right, Nat.mod_eq_of_lt (by omega)]
      omega
    have hsB : ∀ p, p < en → (slot t p).isSome := by
      intro p a
      refine hs p (by omega) ?_
      rw [Nat.mod_eq_of_lt (by omega)]; omega
    obtain ⟨e, he⟩ := Option.isSome_iff_exists.mp (hsA (t.cap - 1) (by omega) (by omega))
    obtain ⟨t1, l, h1, hl, s1, wf1, sl1⟩ := sshift_spec wf q x hn (Nat.le_refl _) hcap hsA he
    have hc1 : t1.cap = t.cap := by rw [Tab.cap, s1.log]; rfl
    refine ⟨fun h0 => ?_, fun h0 => ?_⟩
    · subst h0
      rw [shiftInsertSparse, if_pos hgt, h1, bind_ok]
      simp only
      rw [sshift_zero wf1]; rfl
    · have hsB' : ∀ p, 0 ≤ p → p < en → (slot t1 p).isSome := fun p _ a => by
        rw [slot_same wf wf1 s1]; exact hsB p a
      obtain ⟨e', he'⟩ := Option.isSome_iff_exists.mp (hsB' (en - 1) (by omega) (by omega))
      obtain ⟨t2, l2, h2, hl2, s2, wf2, sl2⟩ := sshift_spec wf1 e.1 e.2 (by omega) (by omega) hto2 hsB' he'
      have hto1 : slot t2 en = none := by
        rw [sl2, if_neg (by omega), if_neg (by omega), sl1, if_neg (by omega), if_neg (by omega)]; exact hto
      obtain ⟨t3, h3, wf3, a1, a2, a3, a4, a5, sl3, lo3⟩ := setAtEmpty_spec wf2 e'.1 e'.2 hto2 hto1
      have s := s1.trans s2
      refine ⟨t3, loc t n, ?_, wf3, a1.trans s.log, a2.trans s.size, a3.trans s.width, a4.trans s.v, a5.trans s.c, ?_, ?_, ?_⟩
      · rw [shiftInsertSparse, if_pos hgt, h1, bind_ok]
        simp only
        rw [h2, bind_ok]
        simp only [bind_ok]
        rw [h3, bind_ok]
        simp only
        rw [hl]
      · intro p hp
        rw [sl3, circIns_wrap _ _ hgt hn hp]
        have he2 : e' = (slot t (en - 1)).getD (0, 0) := by
          rw [sl1, if_neg (by omega), if_neg (by omega)] at he'
          rw [he']; rfl
        by_cases hp1 : p = en
        · subst hp1
          rw [if_pos rfl, if_neg (by omega), if_pos (by omega)]
          rw [sl1, if_neg (by omega), if_neg (by omega)] at he'
          rw [he']
        · rw [if_neg hp1, sl2]
          by_cases hp2 : p = 0
          · subst hp2
            rw [if_pos rfl, if_neg (by omega), if_neg (by omega), if_pos rfl, he]
          · rw [if_neg hp2]
            by_cases hp3 : 0 < p ∧ p < en
            · rw [if_pos hp3, if_neg (by omega), if_pos (by omega), sl1, if_neg (by omega), if_neg (by omega)]
            · rw [if_neg hp3, sl1]
              by_cases hp4 : p = n
              · rw [if_pos hp4, if_pos hp4]
              · rw [if_neg hp4, if_neg hp4]
                by_cases hp5 : n < p
                · rw [if_pos (by omega), if_pos (by omega)]
                · rw [if_neg (by omega), if_neg (by omega), if_neg hp2]
      · intro p hp
        rw [sl3, if_neg (by omega), sl2, if_neg (by omega), if_neg (by omega), sl1, if_neg (by omega), if_neg (by omega)]
      · intro hd
        rw [lo3 n (Or.inr (by rcases hd with h | h; omega; exact h)), s.loc]

end Tdc.CSH
