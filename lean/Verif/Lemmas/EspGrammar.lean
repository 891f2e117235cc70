import Verif.Lemmas.EspSplit
import Verif.Spec.Slp
import Mathlib.Data.List.Nodup

/-!
# ESP: the grammar derives the text
-/

namespace Tdc
namespace Esp

open Slp

/-! ## Derivations -/

theorem der_mono {g : List (Nat × Nat)} {d x : Nat} {u : List UInt8} (h : DerivesIn g d x u) : ∀ {e g'}, d ≤ e → DerivesIn (g ++ g') e x u := by
  induction h with
  | byte d c => intro e g' _; exact .byte e c
  | rule hg _ _ ih1 ih2 =>
    intro e g' he
    obtain ⟨e, rfl⟩ : ∃ k, e = k + 1 := ⟨e - 1, by omega⟩
    refine .rule ?_ (ih1 (by omega)) (ih2 (by omega))
    rw [List.getElem?_append_left (by rw [List.getElem?_eq_some_iff] at hg; exact hg.1)]
    exact hg

theorem der_mono' {g : List (Nat × Nat)} {d e x : Nat} {u : List UInt8} (h : DerivesIn g d x u) (he : d ≤ e) : DerivesIn g e x u := by
  have := der_mono (g' := []) h he
  simpa using this

theorem deriveRec_of {g : List (Nat × Nat)} {d x : Nat} {u : List UInt8} (h : DerivesIn g d x u) : deriveRec g (d + 1) x = .ok u := by
  induction h with
  | byte d c =>
    rw [deriveRec, if_pos c.toNat_lt]
    simp
  | rule hg _ _ ih1 ih2 =>
    rename_i d i l r u v _ _
    rw [deriveRec, if_neg (by omega), show 256 + i - 256 = i by omega, hg]
    simp only [ih1, ih2, Except.bind]

/-- In an ordered grammar the nesting is at most the number of rules up to the symbol. -/
theorem der_ordered {g : List (Nat × Nat)} (ho : Ordered g) {d x : Nat} {u : List UInt8} (h : DerivesIn g d x u) :
    ∀ {k}, x < 256 + k → DerivesIn g k x u := by
  induction h with
  | byte d c => intro k _; exact .byte k c
  | rule hg _ _ ih1 ih2 =>
    rename_i d i l r u v _ _
    intro k hk
    obtain ⟨h1, h2⟩ := ho i l r hg
    exact der_mono' (.rule hg (ih1 h1) (ih2 h2)) (by omega)

/-- a sequence of symbols and what it stands for -/
inductive Covers (g : List (Nat × Nat)) (d : Nat) : List Nat → List UInt8 → Prop
  | nil : Covers g d [] []
  | cons {x : Nat} {l : List Nat} {u w : List UInt8} : DerivesIn g d x u → Covers g d l w → Covers g d (x :: l) (u ++ w)

theorem Covers.split {g : List (Nat × Nat)} {d : Nat} : ∀ {a b : List Nat} {w : List UInt8}, Covers g d (a ++ b) w →
    ∃ w1 w2, w = w1 ++ w2 ∧ Covers g d a w1 ∧ Covers g d b w2
  | [], b, w, h => ⟨[], w, rfl, .nil, h⟩
  | x :: a, b, w, h => by
    rw [List.cons_append] at h
    cases h with
    | cons h1 h2 =>
      obtain ⟨w1, w2, rfl, g1, g2⟩ := Covers.split h2
      exact ⟨_, w2, by rw [List.append_assoc], .cons h1 g1, g2⟩

theorem Covers.length {g : List (Nat × Nat)} {d : Nat} : ∀ {a : List Nat} {w : List UInt8}, Covers g d a w → (w = [] ↔ a = [])
  | _, _, .nil => by simp
  | _, _, .cons h1 _ => by
    have : ∀ {d x u}, DerivesIn g d x u → u ≠ [] := by
      intro d x u h
      induction h with
      | byte d c => simp
      | rule _ _ _ ih1 _ => simp [ih1]
    simp [this h1]

theorem Covers.bytes (g : List (Nat × Nat)) : ∀ (w : List UInt8), Covers g 0 (w.map UInt8.toNat) w
  | [] => .nil
  | c :: w => .cons (u := [c]) (.byte 0 c) (Covers.bytes g w)

/-! ## The map of rules -/

/-- the map when the keys have been added in this order -/
def mapOf : Nat → List (Nat × Nat) → List ((Nat × Nat) × Nat)
  | _, [] => []
  | ic, k :: ks => (k, ic) :: mapOf (ic + 1) ks

theorem mapOf_append (ic : Nat) (ks : List (Nat × Nat)) (k : Nat × Nat) : mapOf ic (ks ++ [k]) = mapOf ic ks ++ [(k, ic + ks.length)] := by
  induction ks generalizing ic with
  | nil => rfl
  | cons a ks ih => simp only [List.cons_append, mapOf, ih, List.length_cons]; congr 4; omega

theorem mapOf_mem {ic : Nat} {ks : List (Nat × Nat)} {k : Nat × Nat} {v : Nat} : (k, v) ∈ mapOf ic ks ↔ ∃ i, v = ic + i ∧ ks[i]? = some k := by
  induction ks generalizing ic with
  | nil => simp [mapOf]
  | cons a ks ih =>
    simp only [mapOf, List.mem_cons, ih]
    constructor
    · rintro (h | ⟨i, rfl, h⟩)
      · simp at h; exact ⟨0, by omega, by simp [h.1]⟩
      · exact ⟨i + 1, by omega, by simpa using h⟩
    · rintro ⟨i, rfl, h⟩
      rcases i with _ | i
      · left; simp at h; simp [h]
      · right; exact ⟨i, by omega, by simpa using h⟩

theorem mapOf_lookup_none {ic : Nat} {ks : List (Nat × Nat)} {k : Nat × Nat} (h : k ∉ ks) : (mapOf ic ks).lookup k = none := by
  induction ks generalizing ic with
  | nil => rfl
  | cons a ks ih =>
    simp only [List.mem_cons, not_or] at h
    simp only [mapOf, List.lookup]
    have : (k == a) = false := by simpa using h.1
    rw [this]
    exact ih h.2

theorem mapOf_lookup_some {ic : Nat} {ks : List (Nat × Nat)} {k : Nat × Nat} (h : k ∈ ks) : ∃ i, (mapOf ic ks).lookup k = some (ic + i) ∧ ks[i]? = some k := by
  induction ks generalizing ic with
  | nil => simp at h
  | cons a ks ih =>
    by_cases hk : k = a
    · subst hk
      exact ⟨0, by simp [mapOf], rfl⟩
    · have hk' : (k == a) = false := by simpa using hk
      obtain ⟨i, h1, h2⟩ := ih (ic := ic + 1) (by simpa [hk] using h)
      refine ⟨i + 1, ?_, by simpa using h2⟩
      simp only [mapOf, List.lookup, hk', h1]
      congr 1; omega

/-- keys of a round whose alphabet has `cs` symbols -/
structure Keys (cs : Nat) (ks : List (Nat × Nat)) : Prop where
  nodup : ks.Nodup
  fst : ∀ (i : Nat) (k : Nat × Nat), ks[i]? = some k → k.1 < cs + i
  snd : ∀ (i : Nat) (k : Nat × Nat), ks[i]? = some k → k.2 < cs

theorem access_ok {cs : Nat} {ks : List (Nat × Nat)} (h : Keys cs ks) {k : Nat × Nat} (h1 : k.1 < cs + ks.length) (h2 : k.2 < cs) :
    ∃ i t, (⟨mapOf (cs + 1) ks, cs + 1 + ks.length⟩ : Rules).access k = (cs + 1 + i, ⟨mapOf (cs + 1) (ks ++ t), cs + 1 + (ks ++ t).length⟩) ∧
      Keys cs (ks ++ t) ∧ t.length ≤ 1 ∧ (ks ++ t)[i]? = some k := by
  unfold Rules.access
  by_cases hk : k ∈ ks
  · obtain ⟨i, e1, e2⟩ := mapOf_lookup_some (ic := cs + 1) hk
    refine ⟨i, [], ?_, by simpa using h, by simp, by simpa using e2⟩
    simp only [e1, List.append_nil]
  · refine ⟨ks.length, [k], ?_, ?_, by simp, by simp⟩
    · simp only [mapOf_lookup_none hk, mapOf_append, List.length_append, List.length_cons, List.length_nil]
      rw [show cs + 1 + (ks.length + (0 + 1)) = cs + 1 + ks.length + 1 by omega]
    · refine ⟨?_, ?_, ?_⟩
      · rw [List.nodup_append]
        refine ⟨h.nodup, by simp, ?_⟩
        intro a ha b hb hab
        simp at hb; subst hb; subst hab; exact hk ha
      · intro i k' hi
        rcases Nat.lt_or_ge i ks.length with hl | hl
        · rw [List.getElem?_append_left hl] at hi; exact h.fst i k' hi
        · rw [List.getElem?_append_right hl] at hi
          have := (List.getElem?_eq_some_iff.1 hi).1
          simp at this
          have e : i - ks.length = 0 := by omega
          rw [e] at hi; simp at hi; subst hi
          have : i = ks.length := by omega
          subst this; exact h1
      · intro i k' hi
        rcases Nat.lt_or_ge i ks.length with hl | hl
        · rw [List.getElem?_append_left hl] at hi; exact h.snd i k' hi
        · rw [List.getElem?_append_right hl] at hi
          have := (List.getElem?_eq_some_iff.1 hi).1
          simp at this
          have e : i - ks.length = 0 := by omega
          rw [e] at hi; simp at hi; subst hi
          exact h2

/-- rule `i` of a round stands for the block -/
def Names (cs : Nat) (ks : List (Nat × Nat)) (i : Nat) (b : List Nat) : Prop :=
  (∃ x y, b = [x, y] ∧ ks[i]? = some (x, y)) ∨ (∃ x y z j, b = [x, y, z] ∧ ks[j]? = some (x, y) ∧ ks[i]? = some (cs + j, z))

theorem get_append {ks t : List (Nat × Nat)} {i : Nat} {k : Nat × Nat} (h : ks[i]? = some k) : (ks ++ t)[i]? = some k := by
  rw [List.getElem?_append_left (List.getElem?_eq_some_iff.1 h).1]; exact h

theorem Names.mono {cs i : Nat} {ks t : List (Nat × Nat)} {b : List Nat} (h : Names cs ks i b) : Names cs (ks ++ t) i b := by
  rcases h with ⟨x, y, rfl, h⟩ | ⟨x, y, z, j, rfl, h, h'⟩
  · exact Or.inl ⟨x, y, rfl, get_append h⟩
  · exact Or.inr ⟨x, y, z, j, rfl, get_append h, get_append h'⟩

theorem add_ok {cs : Nat} {ks : List (Nat × Nat)} (h : Keys cs ks) {b : List Nat} (hb : ∀ x ∈ b, x < cs) (hl : b.length = 2 ∨ b.length = 3) :
    ∃ i t, (⟨mapOf (cs + 1) ks, cs + 1 + ks.length⟩ : Rules).add b = .ok (cs + i, ⟨mapOf (cs + 1) (ks ++ t), cs + 1 + (ks ++ t).length⟩) ∧
      Keys cs (ks ++ t) ∧ t.length + 1 ≤ b.length ∧ Names cs (ks ++ t) i b ∧ i < (ks ++ t).length := by
  match b, hl with
  | [x, y], _ =>
    have hx := hb x (by simp)
    have hy := hb y (by simp)
    obtain ⟨i, t, e, h1, h2, h3⟩ := access_ok h (k := (x, y)) (by simp; omega) hy
    refine ⟨i, t, ?_, h1, by simpa using h2, Or.inl ⟨x, y, rfl, h3⟩, (List.getElem?_eq_some_iff.1 h3).1⟩
    simp only [Rules.add, e]
    rw [show cs + 1 + i - 1 = cs + i by omega]
  | [x, y, z], _ =>
    have hx := hb x (by simp)
    have hy := hb y (by simp)
    have hz := hb z (by simp)
    obtain ⟨i, t, e, h1, h2, h3⟩ := access_ok h (k := (x, y)) (by simp; omega) hy
    have hi := (List.getElem?_eq_some_iff.1 h3).1
    obtain ⟨i', t', e', h1', h2', h3'⟩ := access_ok h1 (k := (cs + i, z)) (by simp at hi ⊢; omega) hz
    rw [List.append_assoc] at h1' h3'
    simp only [List.append_assoc] at e'
    refine ⟨i', t ++ t', ?_, h1', by simp; omega, Or.inr ⟨x, y, z, i, rfl, ?_, h3'⟩, (List.getElem?_eq_some_iff.1 h3').1⟩
    · simp only [Rules.add, e]
      rw [show cs + 1 + i - 1 = cs + i by omega, e']
      simp only
      rw [show cs + 1 + i' - 1 = cs + i' by omega]
    · rw [← List.append_assoc]; exact get_append h3

theorem names_ok {cs w : Nat} : ∀ (v : List Blk) (s : List Nat) (ks : List (Nat × Nat)), Keys cs ks → (∀ x ∈ s, x < cs) → (∀ b ∈ v, b.len = 2 ∨ b.len = 3) →
    total v = s.length →
    ∃ names t bs, nameBlocks (cs + 1) w v s ⟨mapOf (cs + 1) ks, cs + 1 + ks.length⟩ =
        .ok (names.map (· % 2 ^ w), ⟨mapOf (cs + 1) (ks ++ t), cs + 1 + (ks ++ t).length⟩) ∧
      Keys cs (ks ++ t) ∧ t.length + names.length ≤ s.length ∧ 2 * names.length ≤ s.length ∧ bs.flatten = s ∧ List.Forall₂ (Names cs (ks ++ t)) names bs ∧
      (∀ i ∈ names, i < (ks ++ t).length) ∧ names.length = v.length
  | [], s, ks, h, _, _, ht => by
    have hs : s = [] := by
      have : s.length = 0 := by rw [← ht]; rfl
      exact List.length_eq_zero_iff.1 this
    subst hs
    exact ⟨[], [], [], by simp [nameBlocks], by simpa using h, by simp, by simp, rfl, .nil, by simp, rfl⟩
  | e :: v, s, ks, h, hs, hv, ht => by
    rw [total_cons] at ht
    have he := hv e (by simp)
    obtain ⟨i, t, e1, h1, h2, h3, h4⟩ := add_ok h (b := s.take e.len) (fun x hx => hs x (List.mem_of_mem_take hx)) (by simp; omega)
    obtain ⟨names, t', bs, e1', h1', h2', h2'', h3', h4', h5', h6'⟩ := names_ok (w := w) v (s.drop e.len) (ks ++ t) h1 (fun x hx => hs x (List.mem_of_mem_drop hx))
      (fun b hb => hv b (by simp [hb])) (by simp; omega)
    rw [List.append_assoc] at h1' h4' h5'
    simp only [List.append_assoc] at e1'
    simp only [List.length_take, List.length_drop] at h2 h2' h2''
    refine ⟨i :: names, t ++ t', s.take e.len :: bs, ?_, h1', ?_, ?_, ?_, ?_, ?_, by simp [h6']⟩
    · rw [nameBlocks, if_neg (by omega), e1]
      simp only [Except.bind, e1']
      rw [show cs + i - (cs + 1 - 1) = i by omega]
      rfl
    · simp only [List.length_append, List.length_cons]; omega
    · simp only [List.length_cons]; omega
    · rw [List.flatten_cons, h3', List.take_append_drop]
    · refine .cons ?_ h4'
      rw [← List.append_assoc]; exact h3.mono
    · intro j hj
      rcases List.mem_cons.1 hj with rfl | hj
      · simp only [List.length_append] at h4 ⊢; omega
      · exact h5' j hj

/-! ## Storing the rules -/

/-- the rule of the grammar for a rule of the round -/
def shift (prev : Nat) (k : Nat × Nat) : Nat × Nat := (k.1 + prev, k.2 + prev)

theorem store_ok {cs prev : Nat} {ks : List (Nat × Nat)} {base : Nat} : ∀ (m : List ((Nat × Nat) × Nat)) (rv : List (Nat × Nat)),
    (∀ e ∈ m, e ∈ mapOf (cs + 1) ks) → rv.length = base + ks.length →
    ∃ rv', storeRules (cs + 1) (256 + base) prev m rv = .ok rv' ∧ rv'.length = rv.length ∧ (∀ j, j < base → rv'[j]? = rv[j]?) ∧
      ∀ i k, ks[i]? = some k → ((k, cs + 1 + i) ∈ m ∨ rv[base + i]? = some (shift prev k)) → rv'[base + i]? = some (shift prev k)
  | [], rv, _, _ => ⟨rv, rfl, rfl, fun _ _ => rfl, fun i k _ h => by simpa using h⟩
  | (k0, v0) :: m, rv, hm, hl => by
    obtain ⟨i0, rfl, hi0⟩ := mapOf_mem.1 (hm (k0, v0) (by simp))
    have hlt := (List.getElem?_eq_some_iff.1 hi0).1
    have hidx : 256 + base + (cs + 1 + i0 - (cs + 1)) - 256 = base + i0 := by omega
    obtain ⟨rv', e1, e2, e3, e4⟩ := store_ok (cs := cs) (prev := prev) (ks := ks) (base := base) m (rv.set (base + i0) (shift prev k0))
      (fun e he => hm e (by simp [he])) (by simp [hl])
    refine ⟨rv', ?_, by simpa using e2, ?_, ?_⟩
    · rw [storeRules]
      simp only [hidx]
      rw [if_pos (by omega)]
      exact e1
    · intro j hj
      rw [e3 j hj, List.getElem?_set_ne (by omega)]
    · intro i k hk h
      apply e4 i k hk
      by_cases hi : i = i0
      · subst hi
        right
        rw [hi0] at hk; simp at hk; subst hk
        rw [List.getElem?_set_self (by omega)]
      · rcases h with h | h
        · rcases List.mem_cons.1 h with h | h
          · simp at h; omega
          · exact Or.inl h
        · right
          rw [List.getElem?_set_ne (by omega)]; exact h

theorem store_eq {cs prev : Nat} {ks rules : List (Nat × Nat)} {m : List ((Nat × Nat) × Nat)} (hm : ∀ e, e ∈ m ↔ e ∈ mapOf (cs + 1) ks) :
    storeRules (cs + 1) (256 + rules.length) prev m (rules ++ List.replicate ks.length (0, 0)) = .ok (rules ++ ks.map (shift prev)) := by
  obtain ⟨rv', e1, e2, e3, e4⟩ := store_ok (cs := cs) (prev := prev) (ks := ks) (base := rules.length) m (rules ++ List.replicate ks.length (0, 0))
    (fun e he => (hm e).1 he) (by simp)
  rw [e1]
  congr 1
  apply List.ext_getElem?
  intro j
  rcases Nat.lt_or_ge j rules.length with hj | hj
  · rw [e3 j hj, List.getElem?_append_left hj, List.getElem?_append_left hj]
  · obtain ⟨i, rfl⟩ : ∃ i, j = rules.length + i := ⟨j - rules.length, by omega⟩
    rw [List.getElem?_append_right (by omega), show rules.length + i - rules.length = i by omega, List.getElem?_map]
    rcases hk : ks[i]? with _ | k
    · rw [List.getElem?_eq_none_iff] at hk
      rw [Option.map_none, List.getElem?_eq_none_iff, e2]; simp; omega
    · rw [Option.map_some]
      exact e4 i k hk (Or.inl ((hm _).2 (mapOf_mem.2 ⟨i, rfl, hk⟩)))

/-! ## A round -/

theorem names_derive {cs prev i d : Nat} {rules ks : List (Nat × Nat)} {b : List Nat} {w : List UInt8} (hprev : prev + cs = 256 + rules.length)
    (hn : Names cs ks i b) (hc : Covers rules d (b.map (· + prev)) w) :
    DerivesIn (rules ++ ks.map (shift prev)) (d + 2) (i + (256 + rules.length)) w := by
  have hget : ∀ {j k}, ks[j]? = some k → (rules ++ ks.map (shift prev))[rules.length + j]? = some (shift prev k) := by
    intro j k h
    rw [List.getElem?_append_right (by omega), show rules.length + j - rules.length = j by omega, List.getElem?_map, h]; rfl
  rcases hn with ⟨x, y, rfl, h⟩ | ⟨x, y, z, j, rfl, h, h'⟩
  · cases hc with
    | cons h1 hc =>
      cases hc with
      | cons h2 hc =>
        cases hc
        rw [List.append_nil, show i + (256 + rules.length) = 256 + (rules.length + i) by omega]
        exact .rule (hget h) (der_mono h1 (by omega)) (der_mono h2 (by omega))
  · cases hc with
    | cons h1 hc =>
      cases hc with
      | cons h2 hc =>
        cases hc with
        | cons h3 hc =>
          cases hc
          rw [List.append_nil, show i + (256 + rules.length) = 256 + (rules.length + i) by omega, ← List.append_assoc]
          refine .rule (hget h') ?_ (der_mono h3 (by omega))
          show DerivesIn _ _ (cs + j + prev) _
          rw [show cs + j + prev = 256 + (rules.length + j) by omega]
          exact .rule (hget h) (der_mono h1 (by omega)) (der_mono h2 (by omega))

theorem names_cover {cs prev d : Nat} {rules ks : List (Nat × Nat)} (hprev : prev + cs = 256 + rules.length) {names : List Nat} {bs : List (List Nat)}
    (h : List.Forall₂ (Names cs ks) names bs) : ∀ {w : List UInt8}, Covers rules d (bs.flatten.map (· + prev)) w →
      Covers (rules ++ ks.map (shift prev)) (d + 2) (names.map (· + (256 + rules.length))) w := by
  induction h with
  | nil => intro w h; cases h; exact .nil
  | cons hn _ ih =>
    intro w hc
    rw [List.flatten_cons, List.map_append] at hc
    obtain ⟨w1, w2, rfl, c1, c2⟩ := hc.split
    exact .cons (names_derive hprev hn c1) (ih c2)

/-- what holds before a round -/
structure RInv (n d : Nat) (text : List UInt8) (cs : Nat) (str : List Nat) (rules : List (Nat × Nat)) (prev : Nat) : Prop where
  alph : cs ≤ 2 ^ 32
  pre : prev + cs = 256 + rules.length
  syms : ∀ x ∈ str, x < cs
  cover : Covers rules d (str.map (· + prev)) text
  ordered : Ordered rules
  nodup : rules.Nodup
  old : ∀ k ∈ rules, k.2 < prev
  size : rules.length + str.length ≤ n

theorem bitsFor_bound {m i : Nat} (h64 : m < 2 ^ 64) (h : i ≤ m) : i % 2 ^ bitsFor m = i := by
  apply Nat.mod_eq_of_lt
  unfold bitsFor bitsHi clz64
  by_cases hm : m = 0
  · subst hm; simp; omega
  · simp only [hm, if_false]
    have h1 : m.log2 < 64 := (Nat.log2_lt hm).2 h64
    rw [show 64 - (63 - m.log2) = m.log2 + 1 by omega]
    have := Nat.lt_log2_self (n := m)
    omega

theorem Ordered.append {rules ks : List (Nat × Nat)} {cs prev : Nat} (hprev : prev + cs = 256 + rules.length) (h : Ordered rules) (hk : Keys cs ks) :
    Ordered (rules ++ ks.map (shift prev)) := by
  intro i l r hi
  rcases Nat.lt_or_ge i rules.length with hl | hl
  · rw [List.getElem?_append_left hl] at hi; exact h i l r hi
  · rw [List.getElem?_append_right hl, List.getElem?_map] at hi
    rcases hk' : ks[i - rules.length]? with _ | k
    · rw [hk'] at hi; simp at hi
    · rw [hk'] at hi
      simp only [Option.map_some, Option.some.injEq, shift, Prod.mk.injEq] at hi
      have := hk.fst _ _ hk'
      have := hk.snd _ _ hk'
      omega

theorem round_ok {iter : List ((Nat × Nat) × Nat) → List ((Nat × Nat) × Nat)} (hit : ∀ l, (iter l).Perm l) {n : Nat} {text : List UInt8} (hn : n ≤ 2 ^ 32) :
    ∀ (fuel d cs : Nat) (str : List Nat) (rules : List (Nat × Nat)) (prev : Nat), str.length < fuel → RInv n d text cs str rules prev →
      ∃ s, roundLoop iter fuel cs str rules (256 + rules.length) prev = .ok s ∧ Ordered s.rules ∧ s.rules.Nodup ∧
        (text = [] → s = ⟨rules, 0, true⟩) ∧
        (text ≠ [] → s.empty = false ∧ s.rules.length + 1 ≤ n ∧ s.root < 256 + s.rules.length ∧ ∃ k, 2 ^ k ≤ str.length ∧ DerivesIn s.rules (d + 2 * k) s.root text)
  | 0, _, _, _, _, _, h, _ => absurd h (by omega)
  | fuel + 1, d, cs, str, rules, prev, hf, h => by
    match hstr : str with
    | [] =>
      have ht : text = [] := by have := h.cover; cases this; rfl
      exact ⟨_, rfl, h.ordered, h.nodup, fun _ => rfl, fun hne => absurd ht hne⟩
    | [x] =>
      have hc := h.cover
      have ht : text ≠ [] := by
        intro h0
        have := (Covers.length hc).1 h0
        simp at this
      have hx := h.syms x (by simp)
      have hp := h.pre
      have hsz := h.size
      refine ⟨_, rfl, h.ordered, h.nodup, fun h0 => absurd h0 ht, fun _ => ⟨rfl, by simpa using hsz, by show x + prev < 256 + rules.length; omega, 0, by simp, ?_⟩⟩
      cases hc with
      | cons h1 h2 =>
        cases h2
        rw [List.append_nil]
        exact h1
    | a :: b :: str' =>
      rw [← hstr] at h hf ⊢
      have hlen : 2 ≤ str.length := by rw [hstr]; simp
      obtain ⟨bs, v, e1, e2, e3, e4⟩ := blocks_ok h.alph hlen h.syms
      obtain ⟨names, t, bl, g1, g2, g3, g3', g4, g5, g6, g7⟩ := names_ok (cs := cs) (w := bitsFor (str.length - 1)) v str [] ⟨List.nodup_nil, by simp, by simp⟩ h.syms e4 e3
      simp only [List.nil_append, List.length_nil, Nat.add_zero] at g1 g2 g5 g6
      have hmod : names.map (· % 2 ^ bitsFor (str.length - 1)) = names := by
        conv => rhs; rw [← List.map_id names]
        apply List.map_congr_left
        intro i hi
        have := g6 i hi
        have hsz := h.size
        exact bitsFor_bound (by omega) (by omega)
      rw [hmod] at g1
      have hstore := store_eq (cs := cs) (prev := prev) (ks := t) (rules := rules) (m := iter (mapOf (cs + 1) t)) (fun e => (hit _).mem_iff)
      have hrl : roundLoop iter (fuel + 1) cs str rules (256 + rules.length) prev =
          roundLoop iter fuel t.length names (rules ++ t.map (shift prev)) (256 + (rules ++ t.map (shift prev)).length) (256 + rules.length) := by
        rw [hstr, roundLoop]
        · rw [← hstr]
          have g1' : nameBlocks (cs + 1) (bitsFor (str.length - 1)) v str ⟨[], cs + 1⟩ = .ok (names, ⟨mapOf (cs + 1) t, cs + 1 + t.length⟩) := g1
          simp only [e1, e2, Except.bind, g1', show cs + 1 + t.length - (cs + 1) = t.length by omega, hstore]
          rw [List.length_append, List.length_map, ← Nat.add_assoc]
        · simp
        · simp
      have hinv : RInv n (d + 2) text t.length names (rules ++ t.map (shift prev)) (256 + rules.length) := by
        have hsz := h.size
        refine ⟨by omega, by simp; omega, g6, ?_, Ordered.append h.pre h.ordered g2, ?_, ?_, ?_⟩
        · have hc := h.cover
          rw [← g4] at hc
          exact names_cover h.pre g5 hc
        · rw [List.nodup_append]
          refine ⟨h.nodup, ?_, ?_⟩
          · refine List.Nodup.map ?_ g2.nodup
            rintro ⟨a1, a2⟩ ⟨b1, b2⟩ hab
            simp only [shift, Prod.mk.injEq] at hab ⊢
            omega
          · rintro x hx y hy rfl
            obtain ⟨k, _, rfl⟩ := List.mem_map.1 hy
            have := h.old _ hx
            simp only [shift] at this
            omega
        · intro k hk
          have hp := h.pre
          rcases List.mem_append.1 hk with hk | hk
          · have := h.old k hk; omega
          · obtain ⟨k', hk', rfl⟩ := List.mem_map.1 hk
            obtain ⟨i, hi⟩ := List.getElem?_of_mem hk'
            have := g2.snd i k' hi
            simp only [shift]; omega
        · simp only [List.length_append, List.length_map]; omega
      obtain ⟨s, s1, s2, s3, s4, s5⟩ := round_ok hit hn fuel (d + 2) t.length names _ _ (by omega) hinv
      rw [hrl]
      have htne : text ≠ [] := by
        intro h0
        have := (Covers.length h.cover).1 h0
        rw [hstr] at this
        simp at this
      refine ⟨s, s1, s2, s3, fun h0 => absurd h0 htne, ?_⟩
      intro hne
      obtain ⟨t1, t2, t3, k, t4, t5⟩ := s5 hne
      refine ⟨t1, t2, t3, k + 1, by rw [Nat.pow_succ]; omega, ?_⟩
      rw [show d + 2 * (k + 1) = d + 2 + 2 * k by omega]
      exact t5

theorem generate_ok {iter : List ((Nat × Nat) × Nat) → List ((Nat × Nat) × Nat)} (hit : ∀ l, (iter l).Perm l) (text : List UInt8) (hn : text.length ≤ 2 ^ 32) :
    ∃ s, generate iter text = .ok s ∧ Ordered s.rules ∧ s.rules.Nodup ∧ (text = [] → s = ⟨[], 0, true⟩) ∧
      (text ≠ [] → s.empty = false ∧ s.rules.length + 1 ≤ text.length ∧ s.root < 256 + s.rules.length ∧ ∃ k, 2 ^ k ≤ text.length ∧ DerivesIn s.rules (2 * k) s.root text) := by
  have hc : Covers [] 0 ((text.map UInt8.toNat).map (· + 0)) text := by
    have := Covers.bytes [] text
    rw [show (text.map UInt8.toNat).map (· + 0) = text.map UInt8.toNat from List.map_id _]
    exact this
  obtain ⟨s, s1, s2, s3, s4, s5⟩ := round_ok hit hn (text.length + 1) 0 256 (text.map UInt8.toNat) [] 0 (by simp)
    ⟨by omega, by simp, by
      intro x hx
      obtain ⟨c, _, rfl⟩ := List.mem_map.1 hx
      exact c.toNat_lt, hc, by intro i l r h; simp at h, List.nodup_nil, by simp, by simp⟩
  refine ⟨s, s1, s2, s3, s4, ?_⟩
  intro h
  have := s5 h
  simpa using this

end Esp
end Tdc
