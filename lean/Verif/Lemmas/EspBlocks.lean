import Verif.Model.Esp
import Mathlib.Tactic.IntervalCases

/-!
# ESP: the blocks of a round have two or three symbols and cover the string
-/

namespace Tdc
namespace Esp

/-- neighbours differ -/
def Diff (l : List Nat) : Prop := l.IsChain (· ≠ ·)

/-! ## Labels -/

theorem ctz_lt (x : Nat) : ∀ f m, 0 < x → x < 2 ^ m → m ≤ f → ctz f x < m ∧ x.testBit (ctz f x) = true ∧ ∀ i, i < ctz f x → x.testBit i = false := by
  induction x using Nat.strongRecOn with
  | ind x ih =>
    intro f m h0 hm hf
    rcases f with _ | f
    · have : m = 0 := by omega
      subst this; simp at hm; omega
    · have hm0 : m ≠ 0 := by rintro rfl; simp at hm; omega
      obtain ⟨m, rfl⟩ := Nat.exists_eq_succ_of_ne_zero hm0
      rw [ctz]
      split
      · rename_i h
        refine ⟨by omega, ?_, by omega⟩
        simp [Nat.testBit_zero, h]
      · rename_i h
        have hx : x / 2 < 2 ^ m := by rw [Nat.succ_eq_add_one, Nat.pow_succ] at hm; omega
        obtain ⟨a, b, c⟩ := ih (x / 2) (by omega) f m (by omega) hx (by omega)
        refine ⟨by omega, ?_, ?_⟩
        · rw [Nat.testBit_succ]; exact b
        · intro i hi
          rcases i with _ | i
          · simp [Nat.testBit_zero]; omega
          · rw [Nat.testBit_succ]; exact c i (by omega)

theorem label_ok {x y m : Nat} (hm : m ≤ 32) (hx : x < 2 ^ m) (hy : y < 2 ^ m) (h : x ≠ y) :
    ∃ c, label x y = .ok (2 * c + (y.testBit c).toNat) ∧ c < m ∧ x.testBit c ≠ y.testBit c := by
  have hxor : x ^^^ y < 2 ^ m := Nat.xor_lt_two_pow hx hy
  have h32 : (2 : Nat) ^ m ≤ 2 ^ 32 := Nat.pow_le_pow_right (by omega) hm
  have hmod : (x ^^^ y) % 2 ^ 32 = x ^^^ y := Nat.mod_eq_of_lt (by omega)
  have hne : x ^^^ y ≠ 0 := by
    intro h0
    apply h
    apply Nat.eq_of_testBit_eq
    intro i
    have := congrArg (fun z => z.testBit i) h0
    simp [Nat.testBit_xor] at this
    exact this
  obtain ⟨h1, h2, _⟩ := ctz_lt (x ^^^ y) 32 m (by omega) hxor hm
  refine ⟨ctz 32 (x ^^^ y), ?_, h1, ?_⟩
  · simp only [label, hmod, if_neg hne]
    congr 2
    rw [Nat.testBit_eq_decide_div_mod_eq, Nat.shiftRight_eq_div_pow]
    rcases Nat.mod_two_eq_zero_or_one (y / 2 ^ ctz 32 (x ^^^ y)) with h | h <;> simp [h]
  · rw [Nat.testBit_xor] at h2
    intro h; rw [h] at h2; simp at h2

theorem labelPass_ok {m : Nat} (hm : m ≤ 32) : ∀ (l : List Nat), l ≠ [] → Diff l → (∀ x ∈ l, x < 2 ^ m) →
    ∃ r, labelPass l = .ok r ∧ r.length + 1 = l.length ∧ Diff r ∧ (∀ x ∈ r, x < 2 * m) ∧
      (∀ x y r' , l = x :: y :: r' → ∃ c r'', c < m ∧ r = (2 * c + (y.testBit c).toNat) :: r'' ∧ x.testBit c ≠ y.testBit c)
  | [], h, _, _ => absurd rfl h
  | [x], _, _, _ => ⟨[], rfl, rfl, List.IsChain.nil, by simp, by simp⟩
  | x :: y :: l, _, hd, hb => by
    have hxy : x ≠ y := (List.isChain_cons_cons.1 hd).1
    obtain ⟨c, h1, h2, h3⟩ := label_ok hm (hb x (by simp)) (hb y (by simp)) hxy
    obtain ⟨r, r1, r2, r3, r4, r5⟩ := labelPass_ok hm (y :: l) (by simp) (List.isChain_cons_cons.1 hd).2 (fun z hz => hb z (by simp [hz]))
    refine ⟨(2 * c + (y.testBit c).toNat) :: r, ?_, by simpa using r2, ?_, ?_, ?_⟩
    · rw [labelPass, h1]
      simp only [Except.bind, r1]
    · rcases l with _ | ⟨z, l⟩
      · simp at r2; subst r2; exact List.IsChain.singleton _
      · obtain ⟨c', r'', g1, rfl, g3⟩ := r5 y z l rfl
        refine List.isChain_cons_cons.2 ⟨?_, r3⟩
        intro he
        have hc : c = c' := by
          have a := Bool.toNat_lt (y.testBit c)
          have b := Bool.toNat_lt (z.testBit c')
          omega
        subst hc
        apply g3
        have : (y.testBit c).toNat = (z.testBit c).toNat := by omega
        revert this
        cases y.testBit c <;> cases z.testBit c <;> simp
    · intro z hz
      rcases List.mem_cons.1 hz with rfl | hz
      · have a := Bool.toNat_lt (y.testBit c); omega
      · exact r4 z hz
    · rintro x' y' r' h
      simp only [List.cons.injEq] at h
      obtain ⟨rfl, rfl, rfl⟩ := h
      exact ⟨c, r, h2, rfl, h3⟩

theorem labelPass_ok' {m : Nat} (hm : m ≤ 32) {l : List Nat} (hl : l ≠ []) (hd : Diff l) (hb : ∀ x ∈ l, x < 2 ^ m) :
    ∃ r, labelPass l = .ok r ∧ r.length + 1 = l.length ∧ Diff r ∧ (∀ x ∈ r, x < 2 * m) := by
  obtain ⟨r, a, b, c, d, _⟩ := labelPass_ok hm l hl hd hb
  exact ⟨r, a, b, c, d⟩

theorem labelPasses_ok (alphabet : Nat) (ha : alphabet ≤ 2 ^ 32) {l : List Nat} (hk : iterLog alphabet < l.length) (hd : Diff l)
    (hb : ∀ x ∈ l, x < alphabet) :
    ∃ r, labelPasses (iterLog alphabet) l = .ok r ∧ r.length + iterLog alphabet = l.length ∧ Diff r ∧ ∀ x ∈ r, x < 6 := by
  have ne : ∀ {l : List Nat}, 0 < l.length → l ≠ [] := by rintro l h rfl; simp at h
  by_cases h1 : alphabet < 7
  · have e : iterLog alphabet = 0 := by simp [iterLog, h1]
    rw [e] at hk ⊢
    exact ⟨l, rfl, rfl, hd, fun x hx => by have := hb x hx; omega⟩
  by_cases h2 : alphabet < 9
  · have e : iterLog alphabet = 1 := by simp [iterLog, h1, h2]
    rw [e] at hk ⊢
    obtain ⟨r, a1, a2, a3, a4⟩ := labelPass_ok' (m := 3) (by omega) (ne (by omega)) hd (fun x hx => by have := hb x hx; omega)
    exact ⟨r, by simp [labelPasses, a1, Except.bind], by omega, a3, a4⟩
  by_cases h3 : alphabet < 17
  · have e : iterLog alphabet = 2 := by simp [iterLog, h1, h2, h3]
    rw [e] at hk ⊢
    obtain ⟨r, a1, a2, a3, a4⟩ := labelPass_ok' (m := 4) (by omega) (ne (by omega)) hd (fun x hx => by have := hb x hx; omega)
    obtain ⟨r', b1, b2, b3, b4⟩ := labelPass_ok' (m := 3) (by omega) (ne (by omega)) a3 (fun x hx => by have := a4 x hx; omega)
    exact ⟨r', by simp [labelPasses, a1, b1, Except.bind], by omega, b3, b4⟩
  by_cases h4 : alphabet < 257
  · have e : iterLog alphabet = 3 := by simp [iterLog, h1, h2, h3, h4]
    rw [e] at hk ⊢
    obtain ⟨r, a1, a2, a3, a4⟩ := labelPass_ok' (m := 8) (by omega) (ne (by omega)) hd (fun x hx => by have := hb x hx; omega)
    obtain ⟨r', b1, b2, b3, b4⟩ := labelPass_ok' (m := 4) (by omega) (ne (by omega)) a3 (fun x hx => by have := a4 x hx; omega)
    obtain ⟨r'', c1, c2, c3, c4⟩ := labelPass_ok' (m := 3) (by omega) (ne (by omega)) b3 (fun x hx => by have := b4 x hx; omega)
    exact ⟨r'', by simp [labelPasses, a1, b1, c1, Except.bind], by omega, c3, c4⟩
  · have e : iterLog alphabet = 4 := by simp [iterLog, h1, h2, h3, h4]
    rw [e] at hk ⊢
    obtain ⟨r, a1, a2, a3, a4⟩ := labelPass_ok' (m := 32) (by omega) (ne (by omega)) hd (fun x hx => by have := hb x hx; omega)
    obtain ⟨r', b1, b2, b3, b4⟩ := labelPass_ok' (m := 6) (by omega) (ne (by omega)) a3 (fun x hx => by have := a4 x hx; omega)
    obtain ⟨r'', c1, c2, c3, c4⟩ := labelPass_ok' (m := 4) (by omega) (ne (by omega)) b3 (fun x hx => by have := b4 x hx; omega)
    obtain ⟨r3, d1, d2, d3, d4⟩ := labelPass_ok' (m := 3) (by omega) (ne (by omega)) c3 (fun x hx => by have := c4 x hx; omega)
    exact ⟨r3, by simp [labelPasses, a1, b1, c1, d1, Except.bind], by omega, d3, d4⟩

/-! ## Three values -/

theorem bump_le (e : Nat) (nb : List Nat) : e ≤ bump e nb := by
  induction nb generalizing e with
  | nil => simp [bump]
  | cons a nb ih =>
    have := ih (if a = e then e + 1 else e)
    simp only [bump, List.foldl_cons] at this ⊢
    split at this <;> rename_i h <;> simp only [h, if_true, if_false] at * <;> omega

theorem pick1 (a : Nat) : pick [a] < 3 ∧ pick [a] ≠ a := by
  simp only [pick, bump, List.foldl_cons, List.foldl_nil]
  rcases Nat.lt_or_ge a 2 with h | h
  · interval_cases a <;> decide
  · have h0 : a ≠ 0 := by omega
    simp [h0]; omega

theorem pick2 (a b : Nat) : pick [a, b] < 3 ∧ pick [a, b] ≠ a ∧ pick [a, b] ≠ b := by
  simp only [pick, bump, List.foldl_cons, List.foldl_nil]
  by_cases h0 : a = 0 <;> by_cases h1 : a = 1 <;> by_cases h2 : b = 0 <;> by_cases h3 : b = 1 <;> simp [*] <;> omega

theorem pick_ok (p n : Option Nat) : pick (p.toList ++ n.toList) < 3 ∧ (∀ a ∈ p, pick (p.toList ++ n.toList) ≠ a) ∧ ∀ b ∈ n, pick (p.toList ++ n.toList) ≠ b := by
  rcases p with _ | a <;> rcases n with _ | b
  · simp [pick, bump]
  · have := pick1 b; simpa using this
  · have := pick1 a; simpa using this
  · have := pick2 a b
    refine ⟨this.1, ?_, ?_⟩
    · rintro x hx; simp at hx; subst hx; exact this.2.1
    · rintro x hx; simp at hx; subst hx; exact this.2.2

theorem reducePass_ok (r : Nat) : ∀ (l : List Nat) (p : Option Nat), Diff l → (∀ a ∈ p, ∀ b ∈ l.head?, a ≠ b) →
    (reducePass r p l).length = l.length ∧ Diff (reducePass r p l) ∧ (∀ a ∈ p, ∀ b ∈ (reducePass r p l).head?, a ≠ b) ∧
      (∀ x ∈ reducePass r p l, x < 3 ∨ (x ∈ l ∧ x ≠ r))
  | [], p, _, _ => by simp [reducePass, Diff]
  | x :: l, p, hd, hp => by
    have hpk := pick_ok p l.head?
    have hdl : Diff l := by
      rcases l with _ | ⟨y, l⟩
      · exact List.IsChain.nil
      · exact (List.isChain_cons_cons.1 hd).2
    have hxl : ∀ b ∈ l.head?, x ≠ b := by
      rcases l with _ | ⟨y, l⟩
      · simp
      · rintro b hb; simp at hb; subst hb; exact (List.isChain_cons_cons.1 hd).1
    rw [reducePass]
    generalize he : (if x = r then pick (p.toList ++ l.head?.toList) else x) = e
    have hel : ∀ a ∈ some e, ∀ b ∈ l.head?, a ≠ b := by
      rintro a ha b hb; simp at ha; subst ha
      rw [← he]; split
      · exact hpk.2.2 b hb
      · exact hxl b hb
    obtain ⟨i1, i2, i3, i4⟩ := reducePass_ok r l (some e) hdl hel
    refine ⟨by simp [i1], ?_, ?_, ?_⟩
    · rcases hr : reducePass r (some e) l with _ | ⟨z, m⟩
      · exact List.IsChain.singleton _
      · rw [hr] at i2 i3
        exact List.isChain_cons_cons.2 ⟨i3 e rfl z rfl, i2⟩
    · rintro a ha b hb
      simp at hb; subst hb
      rw [← he]; split
      · exact fun h => hpk.2.1 a ha h.symm
      · exact hp a ha x (by simp)
    · rintro z hz
      rcases List.mem_cons.1 hz with rfl | hz
      · rw [← he]; split
        · exact Or.inl hpk.1
        · rename_i h; exact Or.inr ⟨by simp, h⟩
      · rcases i4 z hz with h | ⟨h, h'⟩
        · exact Or.inl h
        · exact Or.inr ⟨by simp [h], h'⟩

theorem reduce_ok {l : List Nat} (hd : Diff l) (hb : ∀ x ∈ l, x < 6) :
    (reduce l).length = l.length ∧ Diff (reduce l) ∧ ∀ x ∈ reduce l, x < 3 := by
  obtain ⟨a1, a2, _, a4⟩ := reducePass_ok 3 l none hd (by simp)
  obtain ⟨b1, b2, _, b4⟩ := reducePass_ok 4 _ none a2 (by simp)
  obtain ⟨c1, c2, _, c4⟩ := reducePass_ok 5 _ none b2 (by simp)
  refine ⟨by unfold reduce; omega, c2, ?_⟩
  intro x hx
  rcases c4 x hx with h | ⟨h, h5⟩
  · exact h
  rcases b4 x h with h | ⟨h, h4⟩
  · exact h
  rcases a4 x h with h | ⟨h, h3⟩
  · exact h
  have := hb x h
  omega

/-! ## Landmarks -/

/-- The marks are at distance two or three. State: number of unmarked positions since the last mark. -/
def Marks : Nat → List Bool → Prop
  | 0, [] => True
  | 1, [] => True
  | 0, false :: l => Marks 1 l
  | 1, false :: l => Marks 2 l
  | 1, true :: l => Marks 0 l
  | 2, true :: l => Marks 0 l
  | _, _ => False

/-- what is known of the values when the automaton of `Marks` has read everything before `x` -/
def MInv : Nat → Nat → Nat → List Nat → Prop
  | 0, p, x, l => x < p ∨ (p < x ∧ ∃ y l', l = y :: l' ∧ x < y)
  | 1, p, x, _ => (x < p ∧ x = 0) ∨ p < x
  | 2, p, x, l => p < x ∧ ∀ y ∈ l.head?, y < x
  | _, _, _, _ => False

theorem lows_marks : ∀ (l : List Nat) (x p s : Nat), Diff (x :: l) → p ≠ x → p < 3 → (∀ z ∈ x :: l, z < 3) → MInv s p x l →
    Marks s (lows (some p) (some (decide (s = 0))) (x :: l) (highs (some p) (x :: l))) := by
  intro l
  induction l with
  | nil =>
    intro x p s hd hpx hp hb hinv
    have hx := hb x (by simp)
    match s, hinv with
    | 0, hinv =>
      rcases hinv with h | ⟨_, y, l', h, _⟩
      · have h' : ¬ p ≤ x := by omega
        simp [highs, lows, Marks, h']
      · simp at h
    | 1, hinv =>
      rcases hinv with ⟨h, _⟩ | h
      · have h' : x ≤ p := by omega
        simp [highs, lows, Marks, h']
      · have h' : p ≤ x := by omega
        simp [highs, lows, Marks, h']
    | 2, hinv =>
      have h' : p ≤ x := by have := hinv.1; omega
      simp [highs, lows, Marks, h']
  | cons y l ih =>
    intro x p s hd hpx hp hb hinv
    have hx := hb x (by simp)
    have hy := hb y (by simp)
    have hxy : x ≠ y := (List.isChain_cons_cons.1 hd).1
    have hdl : Diff (y :: l) := (List.isChain_cons_cons.1 hd).2
    have hyl : ∀ z ∈ l.head?, y ≠ z ∧ z < 3 := by
      rcases l with _ | ⟨z, l⟩
      · simp
      · rintro w hw; simp at hw; subst hw
        exact ⟨(List.isChain_cons_cons.1 hdl).1, hb _ (by simp)⟩
    have IH := fun s h => ih y x s hdl hxy hx (fun z hz => hb z (List.mem_cons_of_mem _ hz)) h
    have hhx : highs (some p) (x :: y :: l) = (decide (¬ x < p) && decide (¬ x < y)) :: highs (some x) (y :: l) := by
      simp [highs]
    have hhy : (highs (some x) (y :: l)).head? = some (decide (¬ y < x) && (l.head?.toList).all (fun e => decide (¬ y < e))) := by
      simp [highs]
    rw [hhx, lows]
    simp only [hhy, List.head?_cons, Option.toList_some, List.all_append, List.all_cons, List.all_nil, Bool.and_true, Option.all_some]
    match s, hinv with
    | 0, hinv =>
      have hm : (decide (¬ x < p) && decide (¬ x < y)) = false := by
        rcases hinv with h | ⟨_, y', l', h1, h2⟩
        · simp [h]
        · simp at h1; obtain ⟨rfl, rfl⟩ := h1; simp [h2]
      simp only [hm]
      simp only [decide_true, Bool.not_true, Bool.and_false, Bool.false_and, Bool.or_false, Marks]
      apply IH 1
      rcases hinv with h | ⟨_, y', l', h1, h2⟩
      · rcases Nat.lt_or_gt_of_ne hxy with h' | h'
        · exact Or.inr h'
        · exact Or.inl ⟨h', by omega⟩
      · simp at h1; obtain ⟨rfl, rfl⟩ := h1
        exact Or.inr h2
    | 1, hinv =>
      rcases hinv with ⟨h, h0⟩ | h
      · have hm : (decide (¬ x < p) && decide (¬ x < y)) = false := by simp [h]
        have h1 : ¬ p < x := by omega
        have h2 : ¬ y < x := by omega
        have h3 : x < y := by omega
        simp only [hm]
        simp only [h1, h2, not_false_eq_true, decide_true, Bool.true_and, Bool.false_or, Bool.and_self, Bool.not_false, decide_false,
          Nat.one_ne_zero]
        cases hh : (l.head?.toList).all (fun e => decide (¬ y < e)) with
        | true =>
          simp only [Bool.not_true, Marks]
          apply IH 2
          refine ⟨h3, ?_⟩
          intro z hz
          have := hyl z hz
          rw [List.all_eq_true] at hh
          have := hh z (by rw [Option.mem_toList]; exact hz)
          simp at this
          omega
        | false =>
          simp only [Bool.not_false, Marks]
          apply IH 0
          refine Or.inr ⟨h3, ?_⟩
          rcases l with _ | ⟨z, l⟩
          · simp at hh
          · simp at hh; exact ⟨z, l, rfl, hh⟩
      · have h1 : ¬ x < p := by omega
        simp only [h1, h, not_true_eq_false, not_false_eq_true, decide_true, decide_false, Bool.true_and, Bool.false_and, Bool.or_false]
        by_cases h2 : x < y
        · simp only [h2, not_true_eq_false, decide_false, Marks]
          apply IH 2
          refine ⟨h2, ?_⟩
          intro z hz
          have := hyl z hz
          omega
        · simp only [h2, not_false_eq_true, decide_true, Marks]
          apply IH 0
          exact Or.inl (by omega)
    | 2, hinv =>
      obtain ⟨h, h'⟩ := hinv
      have h1 : ¬ x < p := by omega
      have h2 := h' y (by simp)
      have h3 : ¬ x < y := by omega
      simp only [h1, h, h3, not_true_eq_false, not_false_eq_true, decide_true, decide_false, Bool.true_and, Bool.false_and, Bool.or_false, Marks]
      apply IH 0
      exact Or.inl h2

theorem highs_length (l : List Nat) : ∀ p, (highs p l).length = l.length := by
  induction l with
  | nil => intro p; rfl
  | cons x l ih => intro p; simp [highs, ih]

theorem lows_length (l : List Nat) : ∀ p q (ms : List Bool), ms.length = l.length → (lows p q l ms).length = l.length := by
  induction l with
  | nil => intro p q ms h; simp [lows]
  | cons x l ih =>
    intro p q ms h
    rcases ms with _ | ⟨m, ms⟩
    · simp at h
    · simp only [lows, List.length_cons, ih _ _ ms (by simpa using h)]

theorem landmarks_length (l : List Nat) : (landmarks l).length = l.length := lows_length l _ _ _ (highs_length l _)

/-- The first mark is at position 0 or 1, and so on. -/
theorem landmarks_marks {l : List Nat} (hl : l ≠ []) (hd : Diff l) (hb : ∀ z ∈ l, z < 3) :
    Marks 1 (landmarks l) ∧ landmarks l ≠ [] ∧ landmarks l ≠ [false] := by
  rcases l with _ | ⟨x, l⟩
  · exact absurd rfl hl
  rcases l with _ | ⟨y, l⟩
  · simp [landmarks, highs, lows, Marks]
  have hx := hb x (by simp)
  have hy := hb y (by simp)
  have hxy : x ≠ y := (List.isChain_cons_cons.1 hd).1
  have hdl : Diff (y :: l) := (List.isChain_cons_cons.1 hd).2
  have hne : landmarks (x :: y :: l) ≠ [] ∧ landmarks (x :: y :: l) ≠ [false] := by
    have := landmarks_length (x :: y :: l)
    constructor <;> intro h <;> rw [h] at this <;> simp at this
  refine ⟨?_, hne⟩
  have hyl : ∀ z ∈ l.head?, y ≠ z ∧ z < 3 := by
    rcases l with _ | ⟨z, l⟩
    · simp
    · rintro w hw; simp at hw; subst hw
      exact ⟨(List.isChain_cons_cons.1 hdl).1, hb _ (by simp)⟩
  have IH := fun s h => lows_marks l y x s hdl hxy hx (fun z hz => hb z (List.mem_cons_of_mem _ hz)) h
  have hhx : highs none (x :: y :: l) = (decide (¬ x < y)) :: highs (some x) (y :: l) := by
    simp [highs]
  have hhy : (highs (some x) (y :: l)).head? = some (decide (¬ y < x) && (l.head?.toList).all (fun e => decide (¬ y < e))) := by
    simp [highs]
  unfold landmarks
  rw [hhx, lows]
  simp only [hhy, List.head?_cons, Option.toList_some, Option.toList_none, List.nil_append, List.all_cons, List.all_nil, Bool.and_true, Option.all_some, Option.all_none]
  rcases Nat.lt_or_gt_of_ne hxy with h | h
  · have h2 : ¬ y < x := by omega
    simp only [h, h2, not_true_eq_false, not_false_eq_true, decide_true, decide_false, Bool.true_and, Bool.false_or]
    cases hh : (l.head?.toList).all (fun e => decide (¬ y < e)) with
    | true =>
      simp only [Bool.not_true, Marks]
      apply IH 2
      refine ⟨h, ?_⟩
      intro z hz
      have := hyl z hz
      rw [List.all_eq_true] at hh
      have := hh z (by rw [Option.mem_toList]; exact hz)
      simp at this
      omega
    | false =>
      simp only [Bool.not_false, Marks]
      apply IH 0
      refine Or.inr ⟨h, ?_⟩
      rcases l with _ | ⟨z, l⟩
      · simp at hh
      · simp at hh; exact ⟨z, l, rfl, hh⟩
  · have h2 : ¬ x < y := by omega
    simp only [h2, h, not_true_eq_false, not_false_eq_true, decide_true, decide_false, Bool.true_or, Marks]
    apply IH 0
    exact Or.inl h

/-- sum of the lengths -/
def total (l : List Blk) : Nat := (l.map Blk.len).sum

theorem spanLoop_ok (size : Nat) : ∀ (lm : List Bool) (i s l0 : Nat), Marks s lm → i + lm.length = size → s + 1 ≤ i → l0 + s + 1 ≤ i → i ≤ l0 + s + 2 →
    let r := spanLoop size i lm (some (l0, if i - 1 - s = size - 1 then size - 1 else i - s))
    (r.map fun s => s.2 - s.1 + 1).sum = size - l0 ∧ ∀ x ∈ r, 1 ≤ x.2 - x.1 + 1 ∧ x.2 - x.1 + 1 ≤ 3 := by
  intro lm
  induction lm with
  | nil =>
    intro i s l0 hm hi h1 h2 h3
    simp only [List.length_nil, Nat.add_zero] at hi
    subst hi
    have hs : s = 0 ∨ s = 1 := by
      rcases s with _ | _ | s
      · exact Or.inl rfl
      · exact Or.inr rfl
      · simp [Marks] at hm
    simp only [spanLoop, List.map_cons, List.map_nil, List.sum_cons, List.sum_nil, Nat.add_zero, List.mem_singleton, forall_eq]
    rcases hs with rfl | rfl <;> split <;> omega
  | cons m lm ih =>
    intro i s l0 hm hi h1 h2 h3
    simp only [List.length_cons] at hi
    cases m with
    | false =>
      have hs : (s = 0 ∧ Marks 1 lm) ∨ (s = 1 ∧ Marks 2 lm) := by
        rcases s with _ | _ | s
        · exact Or.inl ⟨rfl, hm⟩
        · exact Or.inr ⟨rfl, hm⟩
        · simp [Marks] at hm
      have := ih (i + 1) (s + 1) l0 (by rcases hs with ⟨rfl, h⟩ | ⟨rfl, h⟩ <;> exact h) (by omega) (by omega) (by omega) (by omega)
      have e1 : i + 1 - 1 - (s + 1) = i - 1 - s := by omega
      have e2 : i + 1 - (s + 1) = i - s := by omega
      rw [e1, e2] at this
      simpa only [spanLoop] using this
    | true =>
      have hs : (s = 1 ∨ s = 2) ∧ Marks 0 lm := by
        rcases s with _ | _ | _ | s
        · simp [Marks] at hm
        · exact ⟨Or.inl rfl, hm⟩
        · exact ⟨Or.inr rfl, hm⟩
        · simp [Marks] at hm
      have := ih (i + 1) 0 (i - 1) hs.2 (by omega) (by omega) (by omega) (by omega)
      have e1 : i + 1 - 1 - 0 = i := by omega
      have e2 : i + 1 - 0 = i + 1 := by omega
      have e3 : (if i = size - 1 then size - 1 else i + 1) = if i = size - 1 then i else i + 1 := by split <;> omega
      rw [e1, e2, e3] at this
      have hi0 : i ≠ 0 := by omega
      have hz : ¬ i - 1 - s = size - 1 := by omega
      simp only [spanLoop, hi0, if_false, hz]
      simp only [List.map_cons, List.sum_cons, List.mem_cons, forall_eq_or_imp]
      refine ⟨?_, ?_, this.2⟩
      · rw [this.1]; split <;> rcases hs.1 with rfl | rfl <;> omega
      · split <;> rcases hs.1 with rfl | rfl <;> omega

theorem spanBlocks_ok {lm : List Bool} (h : Marks 1 lm) (h1 : lm ≠ []) (h2 : lm ≠ [false]) :
    total (spanBlocks lm) = lm.length ∧ (∀ b ∈ spanBlocks lm, 1 ≤ b.len ∧ b.len ≤ 3 ∧ b.type = 2) := by
  have key : ((spanLoop lm.length 0 lm none).map fun s => s.2 - s.1 + 1).sum = lm.length ∧
      ∀ x ∈ spanLoop lm.length 0 lm none, 1 ≤ x.2 - x.1 + 1 ∧ x.2 - x.1 + 1 ≤ 3 := by
    rcases lm with _ | ⟨m, lm⟩
    · exact absurd rfl h1
    cases m with
    | true =>
      have := spanLoop_ok (lm.length + 1) lm 1 0 0 h (by omega) (by omega) (by omega) (by omega)
      have e3 : (if 1 - 1 - 0 = lm.length + 1 - 1 then lm.length + 1 - 1 else 1 - 0) = if 0 = lm.length + 1 - 1 then 0 else 0 + 1 := by split <;> omega
      rw [e3] at this
      simpa [spanLoop] using this
    | false =>
      rcases lm with _ | ⟨m, lm⟩
      · exact absurd rfl h2
      cases m with
      | false => exact absurd h (by simp [Marks])
      | true =>
        have := spanLoop_ok (lm.length + 1 + 1) lm 2 0 0 h (by omega) (by omega) (by omega) (by omega)
        have e3 : (if 2 - 1 - 0 = lm.length + 1 + 1 - 1 then lm.length + 1 + 1 - 1 else 2 - 0) = if 1 = lm.length + 1 + 1 - 1 then 1 else 1 + 1 := by split <;> omega
        rw [e3] at this
        simpa [spanLoop] using this
  have hb : ∀ x ∈ spanLoop lm.length 0 lm none, (x.2 - x.1 + 1) % 256 = x.2 - x.1 + 1 := fun x hx => by have := key.2 x hx; omega
  constructor
  · rw [← key.1]
    unfold total spanBlocks
    rw [List.map_map]
    congr 1
    apply List.map_congr_left
    intro x hx
    exact hb x hx
  · intro b hb'
    unfold spanBlocks at hb'
    obtain ⟨x, hx, rfl⟩ := List.mem_map.1 hb'
    have := key.2 x hx
    simp only [blk, hb x hx]
    exact ⟨this.1, this.2, trivial⟩

end Esp
end Tdc
