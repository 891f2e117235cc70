import Verif.Props.DivSufSort
import Verif.Lemmas.DivSufSortKey
import Verif.Spec.DivSufSortMid

/-! # The ranks of the substrings order the B* suffixes -/

namespace Tdc

open DSS

variable {T : List UInt8}

/-- position of the B* suffix with the number `x` -/
def bst (T : List UInt8) (x : Nat) : Nat := (bstars T).getD x 0

theorem bst_get {x : Nat} (hx : x < (bstars T).length) : (bstars T)[x]? = some (bst T x) := by
  unfold bst
  rw [List.getD_eq_getElem?_getD, List.getElem?_eq_getElem hx]
  rfl

theorem stars_bst (T : List UInt8) : Stars T.length (dssLt T) (bstars T).length (bst T) where
  lt_n x hx := ((mem_bstars T _).mp (List.mem_of_getElem? (bst_get hx))).1
  star x hx := ((mem_bstars T _).mp (List.mem_of_getElem? (bst_get hx))).2
  all p hp hs := by
    obtain ⟨x, hx⟩ := List.mem_iff_getElem?.mp ((mem_bstars T p).mpr ⟨hp, hs⟩)
    have hl := (List.getElem?_eq_some_iff.mp hx).1
    refine ⟨x, hl, ?_⟩
    rw [bst_get hl] at hx
    exact Option.some.inj hx
  mono x y hxy hy := by
    have h := (List.pairwise_iff_getElem.mp (bstars_sorted T)) x y (by omega) hy hxy
    have h1 := bst_get (T := T) (x := x) (by omega)
    have h2 := bst_get (T := T) hy
    rw [List.getElem?_eq_getElem (by omega)] at h1 h2
    injection h1 with h1
    injection h2 with h2
    omega

theorem bkey_eq {x : Nat} (hx : x < (bstars T).length) : bkey T x = (T.drop (bst T x)).take (klen T.length (bstars T).length (bst T) x) := by
  unfold bkey klen
  rw [bst_get hx]
  by_cases h : x + 1 < (bstars T).length
  · rw [bst_get h, if_pos h]
  · rw [if_neg h, List.getElem?_eq_none (by omega)]
    dsimp only
    rw [List.take_of_length_le (by rw [List.length_drop])]

theorem bkey_length {x : Nat} (hx : x < (bstars T).length) : (bkey T x).length = klen T.length (bstars T).length (bst T) x := by
  have h := (stars_bst T).end_le (dss_txt (cell := id) T (fun _ _ _ => rfl)).O hx
  rw [bkey_eq hx, List.length_take, List.length_drop]
  omega

theorem bkey_get {x q : Nat} (hx : x < (bstars T).length) (hq : q < (bkey T x).length) :
    (bkey T x)[q].toNat = dssCh T (bst T x + q) := by
  have h := (stars_bst T).end_le (dss_txt (cell := id) T (fun _ _ _ => rfl)).O hx
  have hl := bkey_length hx
  have h1 : (bkey T x)[q]? = T[bst T x + q]? := by
    rw [bkey_eq hx, List.getElem?_take_of_lt (by omega), List.getElem?_drop]
  rw [List.getElem?_eq_getElem hq, List.getElem?_eq_getElem (by omega)] at h1
  injection h1 with h1
  rw [h1]
  unfold dssCh
  rw [getD_of_lt (by omega)]

/-- The smaller substring belongs to the smaller suffix. -/
theorem bkey_lt {x y : Nat} (hx : x < (bstars T).length) (hy : y < (bstars T).length) (h : bkey T x < bkey T y) :
    dssLt T (bst T x) (bst T y) := by
  have O := (dss_txt (cell := id) T (fun _ _ _ => rfl)).O
  have hex := (stars_bst T).end_le O hx
  have hey := (stars_bst T).end_le O hy
  have hlx := bkey_length hx
  have hly := bkey_length hy
  rcases List.lt_iff_exists.mp h with ⟨h1, h2⟩ | ⟨i, hi, hj, he, hlt⟩
  · refine (stars_bst T).lt_of_prefix O hx hy (by omega) (fun q hq => ?_)
    rw [← bkey_get hx (by omega), ← bkey_get hy (by omega)]
    congr 1
    have : (bkey T x)[q]? = (bkey T y)[q]? := by
      rw [h1, List.getElem?_take_of_lt (by omega)]
    rw [List.getElem?_eq_getElem (by omega), List.getElem?_eq_getElem (by omega)] at this
    exact Option.some.inj this
  · refine Stars.lt_of_mismatch O i (by omega) (by omega) (fun q hq => ?_) ?_
    · rw [← bkey_get hx (by omega), ← bkey_get hy (by omega), he q hq]
    · rw [← bkey_get hx hi, ← bkey_get hy hj]
      exact UInt8.lt_iff_toNat_lt.mp hlt

/-- Equal substrings: the following B* suffixes decide. -/
theorem bkey_same {x y : Nat} (hx : x < (bstars T).length) (hy : y < (bstars T).length) (hne : x ≠ y) (h : bkey T x = bkey T y) :
    x + 1 < (bstars T).length ∧ y + 1 < (bstars T).length ∧
      (dssLt T (bst T x) (bst T y) ↔ dssLt T (bst T (x + 1)) (bst T (y + 1))) := by
  have O := (dss_txt (cell := id) T (fun _ _ _ => rfl)).O
  have hlx := bkey_length hx
  have hly := bkey_length hy
  refine (stars_bst T).lt_of_equal O hx hy hne (by rw [← hlx, ← hly, h]) (fun q hq => ?_)
  have h1 := bkey_get hx (q := q) (by omega)
  have h2 := bkey_get hy (q := q) (by rw [← h]; omega)
  rw [← h1, ← h2]
  simp only [h]

theorem tailSeq_cons {r : Nat → Nat} {m j : Nat} (h : j < m) : tailSeq r m j = r j :: tailSeq r m (j + 1) := by
  unfold tailSeq
  obtain ⟨k, hk⟩ : ∃ k, m - j = k + 1 := ⟨m - j - 1, by omega⟩
  rw [hk, List.range'_succ, List.map_cons]
  have : m - (j + 1) = k := by omega
  rw [this]

/-- The order of the rests of the sequence of ranks is the order of the suffixes. -/
theorem tailSeq_iff {r : Nat → Nat} (hr : ∀ x y, x < (bstars T).length → y < (bstars T).length → (r x < r y ↔ bkey T x < bkey T y)) :
    ∀ (d x y : Nat), (bstars T).length - x ≤ d → x < (bstars T).length → y < (bstars T).length →
      (tailSeq r (bstars T).length x < tailSeq r (bstars T).length y ↔ T.drop (bst T x) < T.drop (bst T y))
  | 0, x, y, h, hx, hy => by omega
  | d + 1, x, y, h, hx, hy => by
    have O := (dss_txt (cell := id) T (fun _ _ _ => rfl)).O
    rw [tailSeq_cons hx, tailSeq_cons hy, List.cons_lt_cons_iff]
    change _ ↔ dssLt T (bst T x) (bst T y)
    rcases lex_total (bkey T x) (bkey T y) with h1 | h1 | h1
    · exact ⟨fun _ => bkey_lt hx hy h1, fun _ => Or.inl ((hr x y hx hy).mpr h1)⟩
    · have n1 : ¬ r x < r y := fun h2 => lex_irrefl _ (h1 ▸ (hr x y hx hy).mp h2)
      have n2 : ¬ r y < r x := fun h2 => lex_irrefl _ (h1 ▸ (hr y x hy hx).mp h2)
      by_cases hne : x = y
      · subst hne
        constructor
        · rintro (h2 | h2)
          · exact absurd h2 n1
          · exact absurd h2.2 (fun h3 => List.lt_irrefl _ h3)
        · exact fun h2 => absurd h2 (O.irr _)
      · obtain ⟨hx1, hy1, hiff⟩ := bkey_same hx hy hne h1
        have ih := tailSeq_iff hr d (x + 1) (y + 1) (by omega) hx1 hy1
        rw [hiff]
        change _ ↔ T.drop _ < T.drop _
        rw [← ih]
        constructor
        · rintro (h2 | h2)
          · exact absurd h2 n1
          · exact h2.2
        · exact fun h2 => Or.inr ⟨by omega, h2⟩
    · have h2 := bkey_lt hy hx h1
      have h3 := (hr y x hy hx).mpr h1
      constructor
      · rintro (h4 | h4)
        · omega
        · omega
      · exact fun h4 => absurd h4 (O.asym h2)

/-- the rank of a substring: the last place of its group -/
def bkRank (T : List UInt8) (x : Nat) : Nat := (List.range (bstars T).length).countP (fun y => decide (¬ bkey T x < bkey T y)) - 1

theorem bkRank_succ {x : Nat} (hx : x < (bstars T).length) :
    bkRank T x + 1 = (List.range (bstars T).length).countP (fun y => decide (¬ bkey T x < bkey T y)) := by
  have : 0 < (List.range (bstars T).length).countP (fun y => decide (¬ bkey T x < bkey T y)) := by
    rw [List.countP_pos_iff]
    exact ⟨x, List.mem_range.mpr hx, by simpa using lex_irrefl _⟩
  unfold bkRank
  omega

theorem countP_lt_of {α : Type} {l : List α} {p q : α → Bool} (h : ∀ x ∈ l, p x = true → q x = true) {a : α} (ha : a ∈ l) (hp : p a = false) (hq : q a = true) :
    l.countP p < l.countP q := by
  induction l with
  | nil => simp at ha
  | cons b l ih =>
    rw [List.countP_cons, List.countP_cons]
    have hb := h b (by simp)
    have hm := List.countP_mono_left (l := l) (p := p) (q := q) (fun x hx => h x (by simp [hx]))
    rcases List.mem_cons.mp ha with rfl | ha
    · rw [hp, hq]; simp; omega
    · have := ih (fun x hx => h x (by simp [hx])) ha
      by_cases h1 : p b = true
      · rw [h1, hb h1]; omega
      · simp only [h1]
        simp only [Bool.false_eq_true, if_false]
        omega

theorem bkRank_lt {x y : Nat} (hx : x < (bstars T).length) (hy : y < (bstars T).length) : bkRank T x < bkRank T y ↔ bkey T x < bkey T y := by
  have h1 := bkRank_succ hx
  have h2 := bkRank_succ hy
  constructor
  · intro h
    by_contra hc
    have : (List.range (bstars T).length).countP (fun z => decide (¬ bkey T y < bkey T z)) ≤
        (List.range (bstars T).length).countP (fun z => decide (¬ bkey T x < bkey T z)) := by
      refine List.countP_mono_left (fun z _ hz => ?_)
      simp only [decide_eq_true_eq] at hz ⊢
      intro h3
      rcases lex_total (bkey T x) (bkey T y) with h4 | h4 | h4
      · exact hc h4
      · exact hz (h4 ▸ h3)
      · exact hz (lex_trans h4 h3)
    omega
  · intro h
    have : (List.range (bstars T).length).countP (fun z => decide (¬ bkey T x < bkey T z)) <
        (List.range (bstars T).length).countP (fun z => decide (¬ bkey T y < bkey T z)) := by
      refine countP_lt_of (fun z _ hz => ?_) (List.mem_range.mpr hy) (by simpa using h) (by simpa using lex_irrefl _)
      simp only [decide_eq_true_eq] at hz ⊢
      exact fun h3 => hz (lex_trans h h3)
    omega

theorem bkRank_eq {x y : Nat} (hx : x < (bstars T).length) (hy : y < (bstars T).length) : bkRank T x = bkRank T y ↔ bkey T x = bkey T y := by
  have h1 := bkRank_lt hx hy
  have h2 := bkRank_lt hy hx
  constructor
  · intro h
    rcases lex_total (bkey T x) (bkey T y) with h4 | h4 | h4
    · have := h1.mpr h4; omega
    · exact h4
    · have := h2.mpr h4; omega
  · intro h
    have n1 : ¬ bkRank T x < bkRank T y := fun h3 => lex_irrefl _ (h ▸ h1.mp h3)
    have n2 : ¬ bkRank T y < bkRank T x := fun h3 => lex_irrefl _ (h ▸ h2.mp h3)
    omega

/-- the last B* suffix has a rank of its own -/
theorem bkRank_last (hm : 0 < (bstars T).length) : Alone (bkRank T) (bstars T).length ((bstars T).length - 1) := by
  intro y hy h
  by_contra hne
  have := (bkey_same hy (by omega) hne ((bkRank_eq hy (by omega)).mp h)).2.1
  omega

theorem bkRank_ends {x : Nat} (hx : x < (bstars T).length) :
    bkRank T x + 1 = (List.range (bstars T).length).countP (fun y => decide (bkRank T y ≤ bkRank T x)) := by
  rw [bkRank_succ hx]
  refine List.countP_congr (fun y hy => ?_)
  simp only [decide_eq_true_eq]
  rw [← bkRank_lt hx (List.mem_range.mp hy)]
  omega

/-- What `trsort` leaves is what the rest of the code needs. -/
theorem ranked_of_tails {SA' : List Int} (hl : SA'.length = T.length)
    (h : ∀ j, j < (bstars T).length → SA'[(bstars T).length + j]? =
      some (((List.range (bstars T).length).countP fun i => decide (tailSeq (bkRank T) (bstars T).length i < tailSeq (bkRank T) (bstars T).length j) : Nat) : Int)) :
    BStarsRanked T SA' where
  length := hl
  ranks j x hj := by
    have hjl := (List.getElem?_eq_some_iff.mp hj).1
    rw [h j hjl]
    rw [bst_get hjl] at hj
    injection hj with hj
    subst hj
    congr 2
    have e : bstars T = (List.range (bstars T).length).map (bst T) := by
      apply List.ext_getElem?
      intro i
      rw [List.getElem?_map]
      by_cases hi : i < (bstars T).length
      · rw [bst_get hi, List.getElem?_range hi]; rfl
      · rw [List.getElem?_eq_none (by omega), List.getElem?_eq_none (by rw [List.length_range]; omega)]; rfl
    conv_rhs => rw [e, List.countP_map]
    refine List.countP_congr (fun i hi => ?_)
    have := tailSeq_iff (T := T) (r := bkRank T) (fun x y hx hy => bkRank_lt hx hy) _ i j (Nat.le_refl _) (List.mem_range.mp hi) hjl
    simp only [decide_eq_true_eq, Function.comp_apply, this]

end Tdc
