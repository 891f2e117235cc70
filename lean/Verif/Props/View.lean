import Verif.Spec.View
import Mathlib.Data.List.Basic

/-!
# Property C72: a view behaves like the byte string it shows
-/

namespace Tdc
namespace VW

variable {m : List UInt8} {v : View} {dbg : Bool}

theorem zsub_eq {a b : Nat} (h : b ≤ a) (ha : a < 2 ^ 64) : zsub a b = a - b := by
  unfold zsub; omega

theorem View.str_length (h : v.In m) : (v.str m).length = v.size := by
  unfold View.str
  rw [List.length_take, List.length_drop]
  have := h.1
  omega

theorem View.str_get (n : Nat) (hn : n < v.size) : (v.str m)[n]? = m[v.ptr + n]? := by
  unfold View.str
  rw [List.getElem?_take_of_lt hn, List.getElem?_drop]

theorem deref_ok (h : v.In m) {n : Nat} (hn : n < v.size) : ∃ x, deref m (v.ptr + n) = .ok x ∧ (v.str m)[n]? = some x := by
  have h1 := h.1
  have hg : m[v.ptr + n]? = some (m[v.ptr + n]'(by omega)) := List.getElem?_eq_getElem _
  exact ⟨_, by rw [deref, hg], by rw [View.str_get n hn, hg]⟩

/-! ### Element access -/

/-- **C72.** `operator[]` inside of the bounds delivers the byte of the string, in debug and release builds. -/
theorem view_index (h : v.In m) (n : Nat) (hn : n < (v.str m).length) : ∃ x, v.index dbg m n = .ok x ∧ (v.str m)[n]? = some x := by
  rw [View.str_length h] at hn
  rw [View.index, if_neg (by omega)]
  exact deref_ok h hn

/-- **C72.** `at` delivers the byte or throws, never anything else. -/
theorem view_at (h : v.In m) (n : Nat) : v.at m n = match (v.str m)[n]? with | some x => .ok x | none => .error .throw := by
  have hl := View.str_length h
  rw [View.at]
  split
  · rename_i hc
    rw [List.getElem?_eq_none (by omega)]
  · rename_i hc
    obtain ⟨x, e1, e2⟩ := deref_ok h (n := n) (by omega)
    rw [e1, e2]

/-- **C72.** `front` and `back` of a non-empty view. -/
theorem view_front_back (h : v.In m) (hne : v.str m ≠ []) :
    (∃ x, v.front dbg m = .ok x ∧ (v.str m).head? = some x) ∧ ∃ y, v.back dbg m = .ok y ∧ (v.str m).getLast? = some y := by
  have hl := View.str_length h
  have hpos : 0 < v.size := by
    rw [← hl]; exact List.length_pos_of_ne_nil hne
  have h1 := h.1
  have h2 := h.2
  constructor
  · rw [View.front, if_neg (by omega)]
    obtain ⟨x, e1, e2⟩ := deref_ok h hpos
    exact ⟨x, e1, by rw [List.head?_eq_getElem?]; exact e2⟩
  · rw [View.back, if_neg (by omega), zsub_eq (by omega) (by omega)]
    obtain ⟨x, e1, e2⟩ := deref_ok h (n := v.size - 1) (by omega)
    exact ⟨x, e1, by rw [List.getLast?_eq_getElem?, hl]; exact e2⟩

/-! ### Cutting -/

theorem cut (h : v.In m) (a l : Nat) (hl : a + l ≤ v.size) :
    (View.mk (v.ptr + a) l).In m ∧ (View.mk (v.ptr + a) l).str m = ((v.str m).drop a).take l := by
  have h1 := h.1
  refine ⟨⟨by simp only; omega, h.2⟩, ?_⟩
  unfold View.str
  simp only
  rw [List.drop_take, List.drop_drop, List.take_take, Nat.min_eq_left (by omega)]

theorem slice_spec (h : v.In m) {a b : Nat} (hab : a ≤ b) (hb : b ≤ v.size) (hn : b ≠ npos) :
    v.slice dbg a b = .ok ⟨v.ptr + a, b - a⟩ := by
  have h1 := h.1
  have h2 := h.2
  rw [View.slice]
  simp only [hn, if_false]
  rw [if_neg (by omega), zsub_eq hab (by omega)]

theorem slice_npos (h : v.In m) {a : Nat} (ha : a ≤ v.size) : v.slice dbg a npos = .ok ⟨v.ptr + a, v.size - a⟩ := by
  have h1 := h.1
  have h2 := h.2
  rw [View.slice]
  simp only [if_true]
  rw [if_neg (by omega), zsub_eq ha (by omega)]

theorem ne_npos (h : v.In m) {b : Nat} (hb : b ≤ v.size) : b ≠ npos := by
  have h1 := h.1
  have h2 := h.2
  unfold npos
  omega

/-- one operation -/
theorem op_spec (h : v.In m) (o : Op) (s : List UInt8) (ho : o.onString (v.str m) = some s) :
    ∃ w, o.run dbg v = .ok w ∧ w.In m ∧ w.str m = s := by
  have hl := View.str_length h
  have h1 := h.1
  have h2 := h.2
  have full : ∀ a, (v.str m).drop a = ((v.str m).drop a).take (v.size - a) := by
    intro a
    rw [List.take_of_length_le]
    rw [List.length_drop, hl]
    exact Nat.le_refl _
  have hlen0 : (v.str m ≠ []) ↔ 0 < v.size := by
    rw [← hl]; exact List.length_pos_iff.symm
  cases o with
  | popBack =>
    simp only [Op.onString] at ho
    split at ho
    · cases ho
    · rename_i hne
      have hp := hlen0.mp hne
      obtain rfl := Option.some.inj ho
      obtain ⟨c1, c2⟩ := cut h 0 (v.size - 1) (by omega)
      refine ⟨⟨v.ptr + 0, v.size - 1⟩, ?_, c1, ?_⟩
      · rw [Op.run, View.popBack, if_neg (by omega), zsub_eq (by omega) (by omega)]; rfl
      · rw [c2, List.drop_zero, List.dropLast_eq_take, hl]
  | popFront =>
    simp only [Op.onString] at ho
    split at ho
    · cases ho
    · rename_i hne
      have hp := hlen0.mp hne
      obtain rfl := Option.some.inj ho
      obtain ⟨c1, c2⟩ := cut h 1 (v.size - 1) (by omega)
      refine ⟨⟨v.ptr + 1, v.size - 1⟩, ?_, c1, ?_⟩
      · rw [Op.run, View.popFront, if_neg (by omega), zsub_eq (by omega) (by omega)]
      · rw [c2, ← full 1, List.drop_one]
  | clear =>
    obtain rfl := Option.some.inj ho
    obtain ⟨c1, c2⟩ := cut h 0 0 (by omega)
    exact ⟨_, rfl, c1, by rw [View.clear]; unfold View.str; simp⟩
  | removePrefix n =>
    simp only [Op.onString, hl] at ho
    split at ho
    · rename_i hn
      obtain rfl := Option.some.inj ho
      obtain ⟨c1, c2⟩ := cut h n (v.size - n) (by omega)
      exact ⟨_, slice_npos h hn, c1, by rw [c2, ← full n]⟩
    · cases ho
  | removeSuffix n =>
    simp only [Op.onString, hl] at ho
    split at ho
    · rename_i hn
      obtain rfl := Option.some.inj ho
      obtain ⟨c1, c2⟩ := cut h 0 (v.size - n) (by omega)
      refine ⟨⟨v.ptr + 0, v.size - n⟩, ?_, c1, by rw [c2, List.drop_zero]⟩
      rw [Op.run, View.removeSuffix, zsub_eq hn (by omega), slice_spec h (Nat.zero_le _) (Nat.sub_le _ _) (ne_npos h (Nat.sub_le _ _))]
      rfl
    · cases ho
  | slice a b =>
    cases b with
    | none =>
      simp only [Op.onString, hl] at ho
      split at ho
      · rename_i hn
        obtain rfl := Option.some.inj ho
        obtain ⟨c1, c2⟩ := cut h a (v.size - a) (by omega)
        exact ⟨_, slice_npos h hn, c1, by rw [c2, ← full a]⟩
      · cases ho
    | some b =>
      simp only [Op.onString, hl] at ho
      split at ho
      · rename_i hn
        obtain rfl := Option.some.inj ho
        obtain ⟨c1, c2⟩ := cut h a (b - a) (by omega)
        exact ⟨_, slice_spec h hn.1 hn.2 (ne_npos h hn.2), c1, by rw [Option.getD_some, c2, List.drop_take]⟩
      · cases ho
  | substr a l =>
    cases l with
    | none =>
      simp only [Op.onString, hl] at ho
      split at ho
      · rename_i hn
        obtain rfl := Option.some.inj ho
        obtain ⟨c1, c2⟩ := cut h a (v.size - a) (by omega)
        refine ⟨_, ?_, c1, by rw [c2, ← full a]⟩
        rw [Op.run, View.substr, Option.getD_none]
        simp only [if_true]
        rw [zsub_eq hn (by omega), show a + (v.size - a) = v.size by omega, Nat.mod_eq_of_lt (by omega),
          slice_spec h hn (Nat.le_refl _) (ne_npos h (Nat.le_refl _))]
      · cases ho
    | some l =>
      simp only [Op.onString, hl] at ho
      split at ho
      · rename_i hn
        obtain rfl := Option.some.inj ho
        obtain ⟨c1, c2⟩ := cut h a l hn
        refine ⟨_, ?_, c1, c2⟩
        rw [Op.run, View.substr, Option.getD_some]
        simp only [ne_npos h (show l ≤ v.size by omega), if_false]
        rw [Nat.mod_eq_of_lt (by omega), slice_spec h (Nat.le_add_right _ _) hn (ne_npos h hn), Nat.add_sub_cancel_left]
      · cases ho

/-- **C72.** Whatever sequence of cutting operations is applied to a view: as long as the arguments fit the string, the view stays inside
of its memory and shows what the same operations make of the string, in debug and release builds. -/
theorem view_history (ops : List Op) : ∀ (v : View) (s : List UInt8), v.In m → onString (v.str m) ops = some s →
    ∃ w, runOps dbg v ops = .ok w ∧ w.In m ∧ w.str m = s := by
  induction ops with
  | nil => intro v s h hs; exact ⟨v, rfl, h, Option.some.inj hs⟩
  | cons o ops ih =>
    intro v s h hs
    rw [onString] at hs
    cases ho : o.onString (v.str m) with
    | none => rw [ho] at hs; cases hs
    | some s1 =>
      rw [ho] at hs
      obtain ⟨w, e1, e2, e3⟩ := op_spec (dbg := dbg) h o s1 ho
      rw [runOps, e1]
      subst e3
      exact ih w s e2 hs

/-- "abcdef": two operations -/
example : onString [97, 98, 99, 100, 101, 102] [.slice 1 (some 5), .popFront, .substr 1 none] = some [100, 101] ∧
    runOps false ⟨2, 6⟩ [.slice 1 (some 5), .popFront, .substr 1 none] = .ok ⟨5, 2⟩ ∧ (View.mk 2 6).In [0, 0, 97, 98, 99, 100, 101, 102, 0] := by
  refine ⟨by decide, by decide, by decide, by decide⟩

/-! ### Comparison -/

theorem str_cons {p n : Nat} (h : (View.mk p (n + 1)).In m) :
    ∃ x, deref m p = .ok x ∧ (View.mk p (n + 1)).str m = x :: (View.mk (p + 1) n).str m ∧ (View.mk (p + 1) n).In m := by
  obtain ⟨x, e1, e2⟩ := deref_ok h (n := 0) (Nat.succ_pos _)
  have h1 := h.1
  simp only at h1 e1
  refine ⟨x, e1, ?_, ⟨by simp only; omega, h.2⟩⟩
  unfold View.str
  simp only
  rw [List.drop_eq_getElem_cons (show p < m.length by omega), List.take_succ_cons]
  have : m[p] = x := by
    have : m[p]? = some x := by
      rw [View.str_get 0 (Nat.succ_pos _)] at e2
      exact e2
    rw [List.getElem?_eq_getElem (by omega)] at this
    exact Option.some.inj this
  rw [this]

theorem str_zero (p : Nat) : (View.mk p 0).str m = [] := by
  unfold View.str; simp

theorem stdEqual_spec {m1 m2 : List UInt8} (n : Nat) : ∀ p1 p2 : Nat, (View.mk p1 n).In m1 → (View.mk p2 n).In m2 →
    stdEqual m1 p1 m2 p2 n = .ok (decide ((View.mk p1 n).str m1 = (View.mk p2 n).str m2)) := by
  induction n with
  | zero => intro p1 p2 _ _; rw [stdEqual, str_zero, str_zero]; simp
  | succ n ih =>
    intro p1 p2 h1 h2
    obtain ⟨x, e1, e2, e3⟩ := str_cons h1
    obtain ⟨y, f1, f2, f3⟩ := str_cons h2
    rw [stdEqual, e1, f1, e2, f2]
    simp only
    by_cases hxy : x = y
    · subst hxy
      rw [if_pos rfl, ih _ _ e3 f3]
      simp
    · rw [if_neg hxy]
      simp [hxy]

theorem stdLex_spec {m1 m2 : List UInt8} (n1 : Nat) : ∀ n2 p1 p2 : Nat, (View.mk p1 n1).In m1 → (View.mk p2 n2).In m2 →
    stdLex m1 m2 p1 n1 p2 n2 = .ok (decide ((View.mk p1 n1).str m1 < (View.mk p2 n2).str m2)) := by
  induction n1 with
  | zero =>
    intro n2 p1 p2 _ h2
    rw [stdLex, str_zero]
    cases n2 with
    | zero => rw [str_zero]; simp
    | succ n2 =>
      obtain ⟨y, f1, f2, f3⟩ := str_cons h2
      rw [f2]
      simp
  | succ n1 ih =>
    intro n2 p1 p2 h1 h2
    obtain ⟨x, e1, e2, e3⟩ := str_cons h1
    cases n2 with
    | zero => rw [stdLex, str_zero, e2]; simp
    | succ n2 =>
      obtain ⟨y, f1, f2, f3⟩ := str_cons h2
      rw [stdLex, e1, f1, e2, f2]
      simp only [List.cons_lt_cons_iff]
      by_cases hxy : x < y
      · rw [if_pos hxy]; simp [hxy]
      · rw [if_neg hxy]
        by_cases hyx : y < x
        · rw [if_pos hyx]
          have : x ≠ y := by rintro rfl; exact absurd hyx hxy
          simp [hxy, this]
        · rw [if_neg hyx, ih _ _ _ e3 f3]
          have : x = y := by
            have a1 := UInt8.not_lt.mp hxy
            have a2 := UInt8.not_lt.mp hyx
            exact UInt8.le_antisymm a2 a1
          simp [this]

/-- **C72.** The comparison operators of views, in whatever memory, are those of the strings: equality of the bytes and the
lexicographic order by unsigned bytes. -/
theorem view_compare {m1 m2 : List UInt8} {l r : View} (h1 : l.In m1) (h2 : r.In m2) :
    opEq m1 l m2 r = .ok (decide (l.str m1 = r.str m2)) ∧ opNe m1 l m2 r = .ok (decide (l.str m1 ≠ r.str m2)) ∧
    opLess m1 l m2 r = .ok (decide (l.str m1 < r.str m2)) ∧ opGreater m1 l m2 r = .ok (decide (r.str m2 < l.str m1)) ∧
    opLe m1 l m2 r = .ok (decide (¬ r.str m2 < l.str m1)) ∧ opGe m1 l m2 r = .ok (decide (¬ l.str m1 < r.str m2)) := by
  have heq : opEq m1 l m2 r = .ok (decide (l.str m1 = r.str m2)) := by
    rw [opEq]
    split
    · rename_i hne
      have : l.str m1 ≠ r.str m2 := by
        intro hc
        have := congrArg List.length hc
        rw [View.str_length h1, View.str_length h2] at this
        exact hne this
      simp [this]
    · rename_i he
      have he : l.size = r.size := by omega
      obtain ⟨p1, n1⟩ := l
      obtain ⟨p2, n2⟩ := r
      simp only at he
      subst he
      exact stdEqual_spec n1 p1 p2 h1 h2
  have hl := stdLex_spec l.size r.size l.ptr r.ptr h1 h2
  have hr := stdLex_spec r.size l.size r.ptr l.ptr h2 h1
  refine ⟨heq, ?_, hl, hr, ?_, ?_⟩
  · rw [opNe, heq]; simp [Except.map]
  · rw [opLe, opGreater, hr, decide_not]; rfl
  · rw [opGe, opLess, hl, decide_not]; rfl

/-- **C72.** For any two views exactly one of `<`, `==`, `>` holds. -/
theorem view_trichotomy {m1 m2 : List UInt8} {l r : View} (h1 : l.In m1) (h2 : r.In m2) :
    (opLess m1 l m2 r = .ok true ∧ opEq m1 l m2 r = .ok false ∧ opGreater m1 l m2 r = .ok false) ∨
    (opLess m1 l m2 r = .ok false ∧ opEq m1 l m2 r = .ok true ∧ opGreater m1 l m2 r = .ok false) ∨
    (opLess m1 l m2 r = .ok false ∧ opEq m1 l m2 r = .ok false ∧ opGreater m1 l m2 r = .ok true) := by
  obtain ⟨e1, -, e2, e3, -, -⟩ := view_compare h1 h2
  rw [e1, e2, e3]
  generalize l.str m1 = a
  generalize r.str m2 = b
  by_cases h : a < b
  · left
    have h1 : a ≠ b := by rintro rfl; exact List.lt_irrefl _ h
    have h2 : ¬ b < a := List.lt_asymm h
    simp [h, h1, h2]
  · by_cases h' : b < a
    · right; right
      have h1 : a ≠ b := by rintro rfl; exact List.lt_irrefl _ h'
      simp [h, h1, h']
    · right; left
      have h1 : a = b := List.le_antisymm (List.not_lt.mp h') (List.not_lt.mp h)
      simp [h1]

/-- **C72.** `starts_with` and `ends_with`, for a byte and for a view. -/
theorem view_starts_ends {mx : List UInt8} {x : View} (h : v.In m) (hx : x.In mx) (c : UInt8) :
    v.startsWith dbg m mx x = .ok (decide (x.str mx <+: v.str m)) ∧ v.endsWith dbg m mx x = .ok (decide (x.str mx <:+ v.str m)) ∧
    v.startsWithC dbg m c = .ok (decide ((v.str m).head? = some c)) ∧ v.endsWithC dbg m c = .ok (decide ((v.str m).getLast? = some c)) := by
  have hl := View.str_length h
  have hlx := View.str_length hx
  have h1 := h.1
  have h2 := h.2
  refine ⟨?_, ?_, ?_, ?_⟩
  · rw [View.startsWith]
    split
    · rename_i hle
      obtain ⟨c1, c2⟩ := cut h 0 x.size (by omega)
      rw [slice_spec h (Nat.zero_le _) hle (ne_npos h hle)]
      simp only [Except.bind, Nat.sub_zero]
      rw [(view_compare c1 hx).1, c2, List.drop_zero]
      congr 1
      rw [Bool.eq_iff_iff, decide_eq_true_iff, decide_eq_true_iff, List.prefix_iff_eq_take, hlx]
      exact ⟨fun h => h.symm, fun h => h.symm⟩
    · rename_i hle
      have : ¬ x.str mx <+: v.str m := by
        intro hc
        have := hc.length_le
        omega
      simp [this]
  · rw [View.endsWith]
    split
    · rename_i hle
      obtain ⟨c1, c2⟩ := cut h (v.size - x.size) x.size (by omega)
      rw [zsub_eq hle (by omega), slice_npos h (Nat.sub_le _ _)]
      simp only [Except.bind]
      rw [show v.size - (v.size - x.size) = x.size by omega, (view_compare c1 hx).1, c2]
      congr 1
      rw [Bool.eq_iff_iff, decide_eq_true_iff, decide_eq_true_iff, List.suffix_iff_eq_drop, hlx, hl, List.take_of_length_le (by rw [List.length_drop]; omega)]
      exact ⟨fun h => h.symm, fun h => h.symm⟩
    · rename_i hle
      have : ¬ x.str mx <:+ v.str m := by
        intro hc
        have := hc.length_le
        omega
      simp [this]
  · rw [View.startsWithC]
    split
    · rename_i h0
      have : v.str m = [] := List.eq_nil_of_length_eq_zero (by omega)
      simp [this]
    · rename_i h0
      obtain ⟨⟨y, e1, e2⟩, -⟩ := view_front_back (dbg := dbg) h (by
        intro hc
        rw [hc] at hl
        exact h0 hl.symm)
      rw [e1, e2]
      simp [Except.map]
  · rw [View.endsWithC]
    split
    · rename_i h0
      have : v.str m = [] := List.eq_nil_of_length_eq_zero (by omega)
      simp [this]
    · rename_i h0
      obtain ⟨-, y, e1, e2⟩ := view_front_back (dbg := dbg) h (by
        intro hc
        rw [hc] at hl
        exact h0 hl.symm)
      rw [e1, e2]
      simp [Except.map]

theorem copyOut_spec (n : Nat) : ∀ p : Nat, (View.mk p n).In m → copyOut m p n = .ok ((View.mk p n).str m) := by
  induction n with
  | zero => intro p _; rw [copyOut, str_zero]
  | succ n ih =>
    intro p h
    obtain ⟨x, e1, e2, e3⟩ := str_cons h
    rw [copyOut, e1]
    simp only [Except.bind]
    rw [ih _ e3, e2]
    rfl

/-- **C72.** Conversion to a vector or a string copies the bytes. -/
theorem view_toVector (h : v.In m) : v.toVector m = .ok (v.str m) := copyOut_spec v.size v.ptr h

/-- **C72.** Equal views have equal hash values, wherever they point (the hash is usable for hash tables together with `==`). -/
theorem view_hash {m1 m2 : List UInt8} {l r : View} (h1 : l.In m1) (h2 : r.In m2) (hasher : UInt8 → Nat)
    (he : opEq m1 l m2 r = .ok true) : ∃ k, l.hash hasher m1 = .ok k ∧ r.hash hasher m2 = .ok k := by
  rw [(view_compare h1 h2).1] at he
  have he : l.str m1 = r.str m2 := by simpa using he
  unfold View.hash
  rw [copyOut_spec l.size l.ptr h1, copyOut_spec r.size r.ptr h2]
  exact ⟨_, rfl, by rw [show (View.mk l.ptr l.size).str m1 = l.str m1 from rfl, he]; rfl⟩

example : opLess [104, 105] ⟨0, 2⟩ [255, 104] ⟨0, 1⟩ = .ok true ∧ opEq [104, 105] ⟨0, 1⟩ [255, 104] ⟨1, 1⟩ = .ok true ∧
    (View.mk 0 2).In [104, 105] ∧ (View.mk 1 1).In [255, 104] := by
  refine ⟨by decide, by decide, ⟨by decide, by decide⟩, by decide, by decide⟩

/-! ### Limits -/

/-- **C72 (limit).** `remove_suffix` with exactly one byte more than the view has does nothing, silently, in debug builds too: the
difference is `npos`. -/
theorem view_removeSuffix_ignored (h : v.In m) : v.removeSuffix dbg (v.size + 1) = .ok v := by
  have h1 := h.1
  have h2 := h.2
  have hz : zsub v.size (v.size + 1) = npos := by unfold zsub npos; omega
  rw [View.removeSuffix, hz, slice_npos h (Nat.zero_le _)]
  rfl

/-- **C72 (limit).** `substr` does not clamp the length as `std::string::substr` does, which it claims to mirror: without debug checks
the result shows memory behind the view. -/
theorem view_substr_overrun :
    (View.mk 0 4).In [97, 98, 99, 100, 42, 43] ∧ (View.mk 0 4).substr false 1 5 = .ok ⟨1, 5⟩ ∧ (View.mk 0 4).substr true 1 5 = .error .throw ∧
    (View.mk 1 5).str [97, 98, 99, 100, 42, 43] = [98, 99, 100, 42, 43] ∧ (([97, 98, 99, 100] : List UInt8).drop 1).take 5 = [98, 99, 100] := by
  refine ⟨⟨by decide, by decide⟩, by decide, by decide, by decide, by decide⟩

/-- **C72 (limit).** Without debug checks `pop_back` of an empty view makes it `2^64 - 1` bytes long. -/
theorem view_popBack_empty (p : Nat) : (View.mk p 0).popBack false = .ok ⟨p, 2 ^ 64 - 1⟩ ∧ (View.mk p 0).popBack true = .error .throw :=
  ⟨by simp [View.popBack, zsub], by simp [View.popBack]⟩

end VW
end Tdc
