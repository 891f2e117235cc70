import Verif.Spec.EspIPD
import Verif.Lemmas.EspGrammar
import Mathlib.Data.List.Perm.Basic
import Mathlib.Data.List.Nodup

namespace Tdc.Esp

/-! ## Association lists -/

theorem lookup_iff {m : List (Key × Nat)} (h : (m.map Prod.fst).Nodup) {k : Key} {v : Nat} : m.lookup k = some v ↔ (k, v) ∈ m := by
  induction m with
  | nil => simp
  | cons e m ih =>
    obtain ⟨k', v'⟩ := e
    simp only [List.map_cons, List.nodup_cons] at h
    simp only [List.lookup_cons, List.mem_cons, Prod.mk.injEq]
    by_cases hk : k = k'
    · subst hk
      simp only [beq_self_eq_true, Option.some.injEq, true_and]
      constructor
      · intro h; exact Or.inl h.symm
      · rintro (h' | h')
        · exact h'.symm
        · exact absurd (List.mem_map_of_mem (f := Prod.fst) h') h.1
    · have : (k == k') = false := by simpa using hk
      rw [this]
      simp only [ih h.2, hk, false_and, false_or]

theorem lookup_none_iff {m : List (Key × Nat)} {k : Key} : m.lookup k = none ↔ k ∉ m.map Prod.fst := by
  induction m with
  | nil => simp
  | cons e m ih =>
    obtain ⟨k', v'⟩ := e
    simp only [List.lookup_cons, List.map_cons, List.mem_cons, not_or]
    by_cases hk : k = k'
    · subst hk; simp
    · have : (k == k') = false := by simpa using hk
      rw [this]
      simp only [ih, hk, not_false_eq_true, true_and]

theorem lookup_perm {m m' : List (Key × Nat)} (h : (m.map Prod.fst).Nodup) (hp : m.Perm m') (k : Key) : m.lookup k = m'.lookup k := by
  have h' : (m'.map Prod.fst).Nodup := (hp.map _).nodup_iff.1 h
  rcases hl : m.lookup k with _ | v
  · symm
    rw [lookup_none_iff] at hl ⊢
    rw [← (hp.map Prod.fst).mem_iff]; exact hl
  · symm
    rw [lookup_iff h] at hl
    rw [lookup_iff h', ← hp.mem_iff]; exact hl

/-- the entry of a key set aside -/
theorem setKey_new {m : List (Key × Nat)} {k : Key} (v : Nat) (hk : k ∉ m.map Prod.fst) : (setKey m k v).Perm ((k, v) :: m) := by
  unfold setKey
  rw [lookup_none_iff.2 hk]
  exact List.perm_append_singleton _ _

theorem map_other {m : List (Key × Nat)} {k : Key} (v : Nat) (hk : k ∉ m.map Prod.fst) : (m.map fun e => if e.1 = k then (k, v) else e) = m := by
  conv => rhs; rw [← List.map_id m]
  apply List.map_congr_left
  intro e he
  rw [if_neg]; rfl
  intro h
  exact hk (h ▸ List.mem_map_of_mem (f := Prod.fst) he)

theorem setKey_old {m r : List (Key × Nat)} {k : Key} {u : Nat} (v : Nat) (hn : (m.map Prod.fst).Nodup) (hp : m.Perm ((k, u) :: r)) :
    (setKey m k v).Perm ((k, v) :: r) := by
  have hn' : (((k, u) :: r).map Prod.fst).Nodup := (hp.map _).nodup_iff.1 hn
  unfold setKey
  rw [lookup_perm hn hp]
  simp only [List.lookup_cons, beq_self_eq_true]
  have := hp.map fun e => if e.1 = k then (k, v) else e
  simp only [List.map_cons, if_true] at this
  rw [map_other (m := r) v (List.nodup_cons.1 hn').1] at this
  exact this

theorem setKey_nodup {m : List (Key × Nat)} {k : Key} {v : Nat} (hn : (m.map Prod.fst).Nodup) : ((setKey m k v).map Prod.fst).Nodup := by
  by_cases hk : k ∈ m.map Prod.fst
  · obtain ⟨⟨k', u⟩, he, rfl⟩ := List.mem_map.1 hk
    obtain ⟨a, b, rfl⟩ := List.append_of_mem he
    have hp : (a ++ (k', u) :: b).Perm ((k', u) :: (a ++ b)) := List.perm_middle
    have := (setKey_old v hn hp).map Prod.fst
    rw [this.nodup_iff]
    exact (hp.map Prod.fst).nodup_iff.1 hn
  · rw [((setKey_new v hk).map Prod.fst).nodup_iff]
    exact List.nodup_cons.2 ⟨hk, hn⟩

theorem setKey_perm {m m' : List (Key × Nat)} {k : Key} {v : Nat} (hn : (m.map Prod.fst).Nodup) (hp : m.Perm m') : (setKey m k v).Perm (setKey m' k v) := by
  by_cases hk : k ∈ m.map Prod.fst
  · obtain ⟨⟨k', u⟩, he, rfl⟩ := List.mem_map.1 hk
    obtain ⟨a, b, rfl⟩ := List.append_of_mem he
    have hp1 : (a ++ (k', u) :: b).Perm ((k', u) :: (a ++ b)) := List.perm_middle
    exact (setKey_old v hn hp1).trans (setKey_old v ((hp.map Prod.fst).nodup_iff.1 hn) (hp.symm.trans hp1)).symm
  · exact (setKey_new v hk).trans ((hp.cons _).trans (setKey_new v (fun h => hk ((hp.map Prod.fst).mem_iff.2 h))).symm)

theorem mem_setKey {m : List (Key × Nat)} {k k' : Key} {v v' : Nat} (hn : (m.map Prod.fst).Nodup) :
    (k', v') ∈ setKey m k v ↔ (k' = k ∧ v' = v) ∨ (k' ≠ k ∧ (k', v') ∈ m) := by
  by_cases hk : k ∈ m.map Prod.fst
  · obtain ⟨⟨k0, u⟩, he, rfl⟩ := List.mem_map.1 hk
    obtain ⟨a, b, rfl⟩ := List.append_of_mem he
    have hp1 : (a ++ (k0, u) :: b).Perm ((k0, u) :: (a ++ b)) := List.perm_middle
    have hn' := List.nodup_cons.1 ((hp1.map Prod.fst).nodup_iff.1 hn)
    rw [(setKey_old v hn hp1).mem_iff, hp1.mem_iff]
    simp only [List.mem_cons, Prod.mk.injEq]
    constructor
    · rintro (h | h)
      · exact Or.inl h
      · exact Or.inr ⟨fun h0 => hn'.1 (by
          have h3 : k' ∈ (a ++ b).map Prod.fst := List.mem_map_of_mem (f := Prod.fst) h
          rw [h0] at h3; exact h3), Or.inr h⟩
    · rintro (h | ⟨h0, h | h⟩)
      · exact Or.inl h
      · exact absurd h.1 h0
      · exact Or.inr h
  · rw [(setKey_new v hk).mem_iff]
    simp only [List.mem_cons, Prod.mk.injEq]
    constructor
    · rintro (h | h)
      · exact Or.inl h
      · exact Or.inr ⟨fun h0 => hk (h0 ▸ List.mem_map_of_mem (f := Prod.fst) h), h⟩
    · rintro (h | ⟨_, h⟩)
      · exact Or.inl h
      · exact Or.inr h

/-! ## What is required of the maps -/

/-- A family of maps which keeps an association list, up to the order; `free`: the empty key is a key like the others. -/
structure FamOk (free : Bool) (F : IpdFam) where
  R : Nat → F.τ → List (Key × Nat) → Prop
  new : ∀ B bc, R B (F.new B bc) []
  nodup : ∀ {B t m}, R B t m → (m.map Prod.fst).Nodup
  perm : ∀ {B t m m'}, R B t m → m.Perm m' → R B t m'
  forAll : ∀ {B t m}, R B t m → (F.forAll B t).Perm m
  access : ∀ {B t m}, R B t m → ∀ k f, (free = true ∨ k ≠ emptyKey B) → ∃ t', F.access B t k f = .ok (t', (m.lookup k).getD 0) ∧ R B t' (setKey m k (f ((m.lookup k).getD 0)))

/-- A key with two numbers `2^B - 1` for `B = 16, 24, …` is only used when the map has a larger value. -/
def Good (m : List (Key × Nat)) (k : Key) : Prop := ∀ j, 2 ≤ j → j ≤ 8 → k = emptyKey (8 * j) → ∃ e ∈ m, 2 ^ (8 * j) ≤ e.2

/-- The same for a single map of 64-bit numbers; `strict`: only good keys are allowed. -/
structure IpdOk (strict : Bool) (I : Ipd) where
  R : I.τ → List (Key × Nat) → Prop
  new : R I.new []
  nodup : ∀ {t m}, R t m → (m.map Prod.fst).Nodup
  forAll : ∀ {t m}, R t m → (I.forAll t).Perm m
  access : ∀ {t m}, R t m → ∀ k f, k ≠ emptyKey 64 → (strict = true → Good m k) → k.1 < 2 ^ 64 → k.2 < 2 ^ 64 → (∀ v, v < 2 ^ 64 → f v < 2 ^ 64) →
    ∃ t', I.access t k f = .ok (t', (m.lookup k).getD 0) ∧ R t' (setKey m k (f ((m.lookup k).getD 0)))

def FamOk.plain {free : Bool} {F : IpdFam} (h : FamOk free F) : IpdOk false F.plain where
  R := h.R 64
  new := h.new 64 0
  nodup := h.nodup
  forAll := h.forAll
  access hr k f hk _ _ _ _ := h.access hr k f (Or.inr hk)

/-! ## StdUnorderedMapIPD -/

def stdOk {iter : List (Key × Nat) → List (Key × Nat)} (hit : ∀ l, (iter l).Perm l) : FamOk true (stdIpd iter) where
  R _ t m := List.Perm t m ∧ (m.map Prod.fst).Nodup
  new _ _ := ⟨List.Perm.refl _, List.nodup_nil⟩
  nodup h := h.2
  perm h hp := ⟨h.1.trans hp, (hp.map _).nodup_iff.1 h.2⟩
  forAll h := (hit _).trans h.1
  access {B t m} h k f _ := by
    have hn : (List.map Prod.fst t).Nodup := (h.1.map Prod.fst).nodup_iff.2 h.2
    refine ⟨setKey t k (f ((m.lookup k).getD 0)), ?_, setKey_perm hn h.1, setKey_nodup h.2⟩
    show Except.ok _ = _
    rw [lookup_perm hn h.1]
    rfl

/-! ## HashMap.h -/

theorem growPow_pow (bc : Nat) : ∀ fuel p, (∃ q, p = 2 ^ q) → ∃ q, growPow bc fuel p = 2 ^ q
  | 0, p, h => h
  | fuel + 1, p, ⟨q, hq⟩ => by
    unfold growPow
    split
    · exact growPow_pow bc fuel _ ⟨q + 1, by rw [hq, Nat.pow_succ]; omega⟩
    · exact ⟨q, hq⟩

theorem growPow_ge (bc : Nat) : ∀ fuel p, 1 ≤ p → bc ≤ p + fuel → bc ≤ growPow bc fuel p
  | 0, p, _, h => h
  | fuel + 1, p, hp, h => by
    unfold growPow
    split
    · exact growPow_ge bc fuel _ (by omega) (by omega)
    · omega

theorem filter_set_new {p : Key × Nat → Bool} : ∀ {l : List (Key × Nat)} {i : Nat} {x y : Key × Nat}, l[i]? = some x → p x = false → p y = true →
    ((l.set i y).filter p).Perm (y :: l.filter p)
  | [], _, _, _, h, _, _ => by simp at h
  | a :: l, 0, x, y, h, hx, hy => by
    simp at h; subst h
    simp [hx, hy]
  | a :: l, i + 1, x, y, h, hx, hy => by
    have := filter_set_new (l := l) (i := i) (by simpa using h) hx hy
    simp only [List.set_cons_succ, List.filter_cons]
    split
    · exact (this.cons _).trans (List.Perm.swap _ _ _)
    · exact this

theorem filter_set_old {p : Key × Nat → Bool} : ∀ {l : List (Key × Nat)} {i : Nat} {x y : Key × Nat}, l[i]? = some x → p x = true → p y = true →
    ∃ r, (l.filter p).Perm (x :: r) ∧ ((l.set i y).filter p).Perm (y :: r)
  | [], _, _, _, h, _, _ => by simp at h
  | a :: l, 0, x, y, h, hx, hy => by
    simp at h; subst h
    exact ⟨l.filter p, by simp [hx], by simp [hy]⟩
  | a :: l, i + 1, x, y, h, hx, hy => by
    obtain ⟨r, h1, h2⟩ := filter_set_old (l := l) (i := i) (by simpa using h) hx hy
    simp only [List.set_cons_succ, List.filter_cons]
    split
    · exact ⟨a :: r, (h1.cons _).trans (List.Perm.swap _ _ _), (h2.cons _).trans (List.Perm.swap _ _ _)⟩
    · exact ⟨r, h1, h2⟩

/-- The invariant of a hash table: `m` are its entries. -/
structure RigOk (hash : Key → Nat) (empty : Key) (t : Rig) (m : List (Key × Nat)) : Prop where
  pow : ∃ q, t.buckets.length = 2 ^ q
  perm : (t.entries empty).Perm m
  nodup : (m.map Prod.fst).Nodup
  size : t.size = m.length
  reach : ∀ (i : Nat) (e : Key × Nat), t.buckets[i]? = some e → e.1 ≠ empty →
    ∃ d, (hash e.1 + d) % t.buckets.length = i ∧ ∀ j, j < d → ∃ e', t.buckets[(hash e.1 + j) % t.buckets.length]? = some e' ∧ e'.1 ≠ empty

theorem mask_mod {l q x : Nat} (h : l = 2 ^ q) : x &&& (l - 1) = x % l := by
  rw [h, Nat.and_two_pow_sub_one_eq_mod]

theorem step_mod (x l : Nat) : (x % l + 1) % l = (x + 1) % l := by rw [Nat.mod_add_mod]

theorem probe_ok {empty : Key} {b : List (Key × Nat)} {k : Key} {h q : Nat} (hq : b.length = 2 ^ q) : ∀ (fuel j : Nat),
    fuel + j = b.length →
    (∃ j' e, j ≤ j' ∧ j' < b.length ∧ b[(h + j') % b.length]? = some e ∧ (e.1 = empty ∨ e.1 = k)) →
    ∃ d e, j ≤ d ∧ d < b.length ∧ probe empty b k fuel ((h + j) % b.length) = .ok ((h + d) % b.length, decide (e.1 = empty)) ∧
      b[(h + d) % b.length]? = some e ∧ (e.1 = empty ∨ e.1 = k) ∧
      ∀ j', j ≤ j' → j' < d → ∃ e', b[(h + j') % b.length]? = some e' ∧ e'.1 ≠ empty ∧ e'.1 ≠ k
  | 0, j, hf, hex => by obtain ⟨j', _, h1, h2, _⟩ := hex; omega
  | fuel + 1, j, hf, hex => by
    have hl : 0 < b.length := by rw [hq]; exact Nat.two_pow_pos q
    have hlt : (h + j) % b.length < b.length := Nat.mod_lt _ hl
    have hj : j < b.length := by omega
    obtain ⟨e, he⟩ : ∃ e, b[(h + j) % b.length]? = some e := ⟨_, List.getElem?_eq_getElem hlt⟩
    unfold probe
    simp only [he]
    by_cases h1 : e.1 = empty
    · exact ⟨j, e, by omega, hj, by simp [h1], he, Or.inl h1, fun j' a b => by omega⟩
    · rw [if_neg h1]
      by_cases h2 : e.1 = k
      · exact ⟨j, e, by omega, hj, by rw [decide_eq_false h1, if_pos h2], he, Or.inr h2, fun j' a b => by omega⟩
      · rw [if_neg h2, mask_mod hq, step_mod, Nat.add_assoc]
        obtain ⟨d, e2, g1, g2, g3, g4, g5, g6⟩ := probe_ok (k := k) (empty := empty) (h := h) hq fuel (j + 1) (by omega) (by
          obtain ⟨j', e', a1, a2, a3, a4⟩ := hex
          rcases Nat.eq_or_lt_of_le a1 with h0 | h0
          · subst h0; rw [he] at a3; simp at a3; subst a3
            rcases a4 with a4 | a4
            · exact absurd a4 h1
            · exact absurd a4 h2
          · exact ⟨j', e', by omega, a2, a3, a4⟩)
        refine ⟨d, e2, by omega, g2, g3, g4, g5, ?_⟩
        intro j' a1 a2
        rcases Nat.eq_or_lt_of_le a1 with h0 | h0
        · subst h0; exact ⟨e, he, h1, h2⟩
        · exact g6 j' (by omega) a2

theorem mem_entries {empty : Key} {t : Rig} {e : Key × Nat} : e ∈ t.entries empty ↔ e.1 ≠ empty ∧ ∃ i : Nat, t.buckets[i]? = some e := by
  unfold Rig.entries
  rw [List.mem_filter, List.mem_iff_getElem?]
  simp [and_comm]

/-- every index is reached from every hash value -/
theorem reach_all {l i x : Nat} (hi : i < l) : ∃ j, j < l ∧ (x + j) % l = i := by
  have hx := Nat.mod_lt x (show 0 < l by omega)
  refine ⟨(i + (l - x % l)) % l, Nat.mod_lt _ (by omega), ?_⟩
  rw [Nat.add_mod_mod, Nat.add_mod, ]
  rw [← Nat.add_mod, show x + (i + (l - x % l)) = i + (x + (l - x % l)) by omega]
  have : x + (l - x % l) = l * (x / l + 1) := by
    have := Nat.div_add_mod x l
    rw [Nat.mul_add, Nat.mul_one]; omega
  rw [this, Nat.add_mul_mod_self_left, Nat.mod_eq_of_lt hi]

/-- Keys of the table have one bucket. -/
theorem RigOk.unique {hash : Key → Nat} {empty : Key} {t : Rig} {m : List (Key × Nat)} (h : RigOk hash empty t m) {i j : Nat} {a b : Key × Nat}
    (hi : t.buckets[i]? = some a) (hj : t.buckets[j]? = some b) (ha : a.1 ≠ empty) (hab : a.1 = b.1) : i = j := by
  have hn : ((t.entries empty).map Prod.fst).Nodup := (h.perm.map _).nodup_iff.2 h.nodup
  unfold Rig.entries at hn
  generalize t.buckets = l at hi hj hn
  clear h
  induction l generalizing i j with
  | nil => simp at hi
  | cons c l ih =>
    rw [List.filter_cons] at hn
    have hsub : ((l.filter fun e => e.1 ≠ empty).map Prod.fst).Nodup := by
      split at hn
      · exact (List.nodup_cons.1 hn).2
      · exact hn
    have hmem : ∀ {x : Nat} {e : Key × Nat}, l[x]? = some e → e.1 ≠ empty → e.1 ∈ (l.filter fun e => e.1 ≠ empty).map Prod.fst := by
      intro x e hx he
      exact List.mem_map_of_mem (List.mem_filter.2 ⟨List.mem_of_getElem? hx, by simpa using he⟩)
    rcases i with _ | i <;> rcases j with _ | j
    · rfl
    · simp only [List.getElem?_cons_zero, Option.some.injEq, List.getElem?_cons_succ] at hi hj
      subst hi
      rw [if_pos (by simpa using ha)] at hn
      have := (List.nodup_cons.1 hn).1
      exact absurd (hab ▸ hmem hj (hab ▸ ha)) this
    · simp only [List.getElem?_cons_zero, Option.some.injEq, List.getElem?_cons_succ] at hi hj
      subst hj
      rw [if_pos (by simpa using hab ▸ ha)] at hn
      have := (List.nodup_cons.1 hn).1
      exact absurd (hab ▸ hmem hi ha) this
    · simp only [List.getElem?_cons_succ] at hi hj
      rw [ih hi hj hsub]

theorem RigOk.ofPerm {hash : Key → Nat} {empty : Key} {t : Rig} {m m' : List (Key × Nat)} (h : RigOk hash empty t m) (hp : m.Perm m') : RigOk hash empty t m' :=
  ⟨h.pow, h.perm.trans hp, (hp.map _).nodup_iff.1 h.nodup, by rw [h.size, hp.length_eq], h.reach⟩

theorem RigOk.mem {hash : Key → Nat} {empty : Key} {t : Rig} {m : List (Key × Nat)} (h : RigOk hash empty t m) {e : Key × Nat} :
    e ∈ m ↔ e.1 ≠ empty ∧ ∃ i : Nat, t.buckets[i]? = some e := by
  rw [← h.perm.mem_iff, mem_entries]

/-- A table which is not full has an empty bucket. -/
theorem RigOk.hole {hash : Key → Nat} {empty : Key} {t : Rig} {m : List (Key × Nat)} (h : RigOk hash empty t m) (hs : t.size < t.buckets.length) :
    ∃ (i : Nat) (e : Key × Nat), t.buckets[i]? = some e ∧ e.1 = empty := by
  by_contra hc
  push Not at hc
  have : t.entries empty = t.buckets := by
    unfold Rig.entries
    rw [List.filter_eq_self]
    intro e he
    obtain ⟨i, hi⟩ := List.mem_iff_getElem?.1 he
    simpa using hc i e hi
  have := h.perm.length_eq
  rw [h.size] at hs
  simp_all

theorem place_ok {hash : Key → Nat} {empty : Key} {t : Rig} {m : List (Key × Nat)} (h : RigOk hash empty t m) (hs : t.size < t.buckets.length) {k : Key} (v : Nat)
    (hk : k ≠ empty) : ∃ t' i, t.place hash empty k v = .ok (t', i) ∧ t'.buckets.length = t.buckets.length ∧
      ((k ∉ m.map Prod.fst ∧ RigOk hash empty t' ((k, v) :: m) ∧ t'.buckets[i]? = some (k, v)) ∨ (t' = t ∧ ∃ u, t.buckets[i]? = some (k, u) ∧ (k, u) ∈ m)) := by
  obtain ⟨q, hq⟩ := h.pow
  have hl : 0 < t.buckets.length := by omega
  obtain ⟨i0, e0, hi0, he0⟩ := h.hole hs
  have hi0l : i0 < t.buckets.length := (List.getElem?_eq_some_iff.1 hi0).1
  obtain ⟨j0, hj0, hj0'⟩ := reach_all (x := hash k) hi0l
  obtain ⟨d, e, _, g2, g3, g4, g5, g6⟩ := probe_ok (empty := empty) (k := k) (h := hash k) hq t.buckets.length 0 (by omega)
    ⟨j0, e0, by omega, hj0, by rw [hj0']; exact hi0, Or.inl he0⟩
  rw [Nat.add_zero] at g3
  unfold Rig.place
  rw [mask_mod hq, g3]
  simp only [Except.bind]
  generalize hi : (hash k + d) % t.buckets.length = i at g4
  have hil : i < t.buckets.length := (List.getElem?_eq_some_iff.1 g4).1
  by_cases he : e.1 = empty
  · have hkm : k ∉ m.map Prod.fst := by
      intro hc
      obtain ⟨e1, he1, rfl⟩ := List.mem_map.1 hc
      obtain ⟨h1, i1, hi1⟩ := h.mem.1 he1
      obtain ⟨d1, a1, a2⟩ := h.reach i1 e1 hi1 h1
      rcases Nat.lt_or_ge d d1 with hd | hd
      · obtain ⟨e2, b1, b2⟩ := a2 d hd
        rw [hi, g4] at b1; simp at b1; subst b1; exact b2 he
      · rcases Nat.eq_or_lt_of_le hd with hd | hd
        · subst hd; rw [a1] at hi; subst hi; rw [g4] at hi1; simp at hi1; subst hi1; exact h1 he
        · obtain ⟨e2, b1, _, b3⟩ := g6 d1 (by omega) hd
          rw [a1, hi1] at b1; simp at b1; subst b1; exact b3 rfl
    refine ⟨_, _, rfl, by simp [he], Or.inl ⟨hkm, ?_, by simp [he, hil]⟩⟩
    simp only [he, decide_true, if_true]
    refine ⟨⟨q, by simpa using hq⟩, ?_, ?_, by simp [h.size], ?_⟩
    · exact (filter_set_new g4 (by simp [he]) (by simpa using hk)).trans (h.perm.cons _)
    · exact List.nodup_cons.2 ⟨hkm, h.nodup⟩
    · intro i1 e1 hi1 he1
      simp only [List.length_set]
      have keep : ∀ {x : Nat} {y : Key × Nat}, t.buckets[x]? = some y → y.1 ≠ empty → ∃ y', (t.buckets.set i (k, v))[x]? = some y' ∧ y'.1 ≠ empty := by
        intro x y hx hy
        by_cases hxi : x = i
        · subst hxi; rw [g4] at hx; simp at hx; subst hx; exact absurd he hy
        · exact ⟨y, by rw [List.getElem?_set_ne (by omega)]; exact hx, hy⟩
      by_cases hxi : i1 = i
      · subst hxi
        simp only [List.getElem?_set_self hil, Option.some.injEq] at hi1
        subst hi1
        refine ⟨d, hi, ?_⟩
        intro j hj
        obtain ⟨e2, b1, b2, _⟩ := g6 j (by omega) hj
        exact keep b1 b2
      · simp only [List.getElem?_set_ne (show i ≠ i1 by omega)] at hi1
        obtain ⟨d1, a1, a2⟩ := h.reach i1 e1 hi1 he1
        refine ⟨d1, a1, ?_⟩
        intro j hj
        obtain ⟨e2, b1, b2⟩ := a2 j hj
        exact keep b1 b2
  · have hek : e.1 = k := by rcases g5 with h0 | h0; exact absurd h0 he; exact h0
    obtain ⟨k', u⟩ := e
    simp only at hek he
    subst hek
    refine ⟨t, i, by simp [he], rfl, Or.inr ⟨rfl, u, g4, h.mem.2 ⟨he, i, g4⟩⟩⟩

/-- A larger table. -/
theorem reinsert_ok {hash : Key → Nat} {empty : Key} : ∀ (l : List (Key × Nat)) (t : Rig) (m : List (Key × Nat)), RigOk hash empty t m →
    (∀ e ∈ l, e.1 ≠ empty) → ((l ++ m).map Prod.fst).Nodup → (l.length + m.length) * 2 ≤ t.buckets.length →
    ∃ t', reinsert (Rig.emplace hash empty 1) l t = .ok t' ∧ RigOk hash empty t' (l ++ m) ∧ t'.buckets.length = t.buckets.length
  | [], t, m, h, _, _, _ => ⟨t, rfl, h, rfl⟩
  | (k, v) :: l, t, m, h, hl, hn, hc => by
    simp only [List.length_cons] at hc
    have hsz := h.size
    have hnk : k ∉ m.map Prod.fst := by
      intro hk
      simp only [List.cons_append, List.map_cons, List.nodup_cons, List.map_append, List.mem_append] at hn
      exact hn.1 (Or.inr hk)
    obtain ⟨t1, i, p1, p2, p3⟩ := place_ok h (by omega) (k := k) v (hl (k, v) (by simp))
    have hemp : Rig.emplace hash empty 1 t k v = .ok (t1, i) := by
      unfold Rig.emplace
      rw [if_neg (by omega)]
      exact p1
    have hr : RigOk hash empty t1 ((k, v) :: m) := by
      rcases p3 with ⟨_, p3, _⟩ | ⟨_, u, _, hu⟩
      · exact p3
      · exact absurd (List.mem_map_of_mem (f := Prod.fst) hu) hnk
    obtain ⟨t', r1, r2, r3⟩ := reinsert_ok l t1 ((k, v) :: m) hr (fun e he => hl e (by simp [he])) (by
      refine (List.Perm.nodup_iff ?_).1 hn
      exact (List.perm_middle.symm).map _) (by rw [p2]; simp only [List.length_cons]; omega)
    refine ⟨t', ?_, r2.ofPerm List.perm_middle, by rw [r3, p2]⟩
    simp only [reinsert, hemp, Except.bind, r1]

theorem new_ok (hash : Key → Nat) (empty : Key) (bc : Nat) : RigOk hash empty (Rig.new empty bc) [] := by
  obtain ⟨q, hq⟩ := growPow_pow bc bc 1 ⟨0, rfl⟩
  refine ⟨⟨q, by simp [Rig.new, hq]⟩, ?_, List.nodup_nil, rfl, ?_⟩
  · unfold Rig.entries Rig.new
    rw [List.filter_eq_nil_iff.2]
    intro e he
    rw [(List.mem_replicate.1 he).2]; simp
  · intro i e hi he
    have := List.mem_of_getElem? hi
    simp only [Rig.new] at this
    rw [(List.mem_replicate.1 this).2] at he
    exact absurd rfl he

theorem emplace_ok {hash : Key → Nat} {empty : Key} {t : Rig} {m : List (Key × Nat)} (h : RigOk hash empty t m) {k : Key} (v : Nat)
    (hk : k ≠ empty) : ∃ t' i, t.emplace hash empty 2 k v = .ok (t', i) ∧
      ((k ∉ m.map Prod.fst ∧ RigOk hash empty t' ((k, v) :: m) ∧ t'.buckets[i]? = some (k, v)) ∨
       (RigOk hash empty t' m ∧ ∃ u, t'.buckets[i]? = some (k, u) ∧ (k, u) ∈ m)) := by
  have hsz := h.size
  have key : ∃ t1, (if (t.size + 1) * 2 > t.buckets.length then
      reinsert (Rig.emplace hash empty 1) (t.entries empty) (Rig.new empty (max ((t.size + 1) * 2) (t.size * 2))) else .ok t) = .ok t1 ∧
      RigOk hash empty t1 m ∧ t1.size < t1.buckets.length := by
    split
    · have hlen := h.perm.length_eq
      have hg := growPow_ge (max ((t.size + 1) * 2) (t.size * 2)) (max ((t.size + 1) * 2) (t.size * 2)) 1 (by omega) (by omega)
      obtain ⟨t1, r1, r2, r3⟩ := reinsert_ok (hash := hash) (t.entries empty) (Rig.new empty (max ((t.size + 1) * 2) (t.size * 2))) [] (new_ok hash empty _)
        (fun e he => (mem_entries.1 he).1) (by rw [List.append_nil]; exact (h.perm.map _).nodup_iff.2 h.nodup) (by
          simp only [Rig.new, List.length_replicate, List.length_nil, Nat.add_zero, hlen]; omega)
      rw [List.append_nil] at r2
      have r2 := r2.ofPerm h.perm
      refine ⟨t1, r1, r2, ?_⟩
      rw [r3, r2.size]
      simp only [Rig.new, List.length_replicate]; omega
    · exact ⟨t, rfl, h, by omega⟩
  obtain ⟨t1, k1, k2, k3⟩ := key
  obtain ⟨t', i, p1, p2, p3⟩ := place_ok k2 k3 v hk
  refine ⟨t', i, ?_, ?_⟩
  · unfold Rig.emplace
    rw [k1]
    exact p1
  · rcases p3 with p3 | ⟨rfl, p3⟩
    · exact Or.inl p3
    · exact Or.inr ⟨k2, p3⟩

/-- Changing the value of an entry. -/
theorem RigOk.setVal {hash : Key → Nat} {empty : Key} {t : Rig} {m : List (Key × Nat)} (h : RigOk hash empty t m) {i : Nat} {k : Key} {u : Nat} (v : Nat)
    (hi : t.buckets[i]? = some (k, u)) (hk : k ≠ empty) : RigOk hash empty ⟨t.buckets.set i (k, v), t.size⟩ (setKey m k v) := by
  obtain ⟨r, h1, h2⟩ := filter_set_old (p := fun e => decide (e.1 ≠ empty)) (y := (k, v)) hi (by simpa using hk) (by simpa using hk)
  have hil : i < t.buckets.length := (List.getElem?_eq_some_iff.1 hi).1
  have hm := setKey_old v h.nodup (h.perm.symm.trans h1)
  obtain ⟨q, hq⟩ := h.pow
  refine ⟨⟨q, by simpa using hq⟩, h2.trans hm.symm, setKey_nodup h.nodup, ?_, ?_⟩
  · show t.size = _
    rw [h.size, hm.length_eq, (h.perm.symm.trans h1).length_eq]; rfl
  · intro i1 e1 hi1 he1
    simp only [List.length_set]
    have keep : ∀ {x : Nat} {y : Key × Nat}, t.buckets[x]? = some y → y.1 ≠ empty → ∃ y', (t.buckets.set i (k, v))[x]? = some y' ∧ y'.1 ≠ empty := by
      intro x y hx hy
      by_cases hxi : x = i
      · subst hxi; exact ⟨(k, v), by rw [List.getElem?_set_self hil], hk⟩
      · exact ⟨y, by rw [List.getElem?_set_ne (by omega)]; exact hx, hy⟩
    have hold : ∃ e2, t.buckets[i1]? = some e2 ∧ e2.1 = e1.1 := by
      by_cases hxi : i1 = i
      · subst hxi
        simp only [List.getElem?_set_self hil, Option.some.injEq] at hi1
        subst hi1; exact ⟨_, hi, rfl⟩
      · simp only [List.getElem?_set_ne (show i ≠ i1 by omega)] at hi1
        exact ⟨e1, hi1, rfl⟩
    obtain ⟨e2, c1, c2⟩ := hold
    obtain ⟨d1, a1, a2⟩ := h.reach i1 e2 c1 (c2 ▸ he1)
    rw [c2] at a1 a2
    refine ⟨d1, a1, ?_⟩
    intro j hj
    obtain ⟨e3, b1, b2⟩ := a2 j hj
    exact keep b1 b2

theorem rigAccess_ok {hash : Key → Nat} {empty : Key} {t : Rig} {m : List (Key × Nat)} (h : RigOk hash empty t m) (k : Key) (f : Nat → Nat) (hk : k ≠ empty) :
    ∃ t', t.access hash empty k f = .ok (t', (m.lookup k).getD 0) ∧ RigOk hash empty t' (setKey m k (f ((m.lookup k).getD 0))) := by
  obtain ⟨t1, i, p1, p2⟩ := emplace_ok h 0 hk
  unfold Rig.access
  rw [p1]
  rcases p2 with ⟨q1, q2, q3⟩ | ⟨q2, u, q3, q4⟩
  · simp only [Except.bind, q3]
    rw [lookup_none_iff.2 q1]
    refine ⟨_, rfl, ?_⟩
    refine (q2.setVal (f 0) q3 hk).ofPerm ?_
    exact (setKey_old (f 0) q2.nodup (List.Perm.refl _)).trans (setKey_new (f 0) q1).symm
  · simp only [Except.bind, q3]
    rw [(lookup_iff h.nodup).2 q4]
    exact ⟨_, rfl, q2.setVal (f u) q3 hk⟩

def hashOk (hash : Nat → Key → Nat) : FamOk false (hashIpd hash) where
  R B t m := RigOk (hash B) (emptyKey B) t m
  new _ _ := new_ok _ _ _
  nodup h := h.nodup
  perm h hp := h.ofPerm hp
  forAll h := h.perm
  access h k f hk := rigAccess_ok h k f (hk.resolve_left (by simp))

end Tdc.Esp
