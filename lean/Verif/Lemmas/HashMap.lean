import Verif.Model.HashMap
import Verif.Lemmas.IntCodes
import Mathlib.Tactic.ByContra
import Mathlib.Order.Basic
import Mathlib.Data.Nat.Init

/-! # The hash map refines a finite map -/

namespace Tdc
namespace HM

variable {κ σ : Type} [DecidableEq κ]

/-- The cell array contains the pair. -/
def Has (cells : List (Option (κ × Nat))) (k : κ) (v : Nat) : Prop := some (k, v) ∈ cells

/-- Every stored key is found by its own search. -/
structure WF (C : Cfg κ) (cells : List (Option (κ × Nat))) : Prop where
  found : ∀ p k v, cells[p]? = some (some (k, v)) → ∃ i, seq C cells.length k i = p ∧ ∀ j < i, stops cells k (seq C cells.length k j) = false

theorem probeFrom_some {C : Cfg κ} {cells : List (Option (κ × Nat))} {k : κ} : ∀ (n i p : Nat), probeFrom C cells k i n = some p →
    ∃ j, i ≤ j ∧ j < i + n ∧ seq C cells.length k j = p ∧ stops cells k p = true ∧ ∀ l, i ≤ l → l < j → stops cells k (seq C cells.length k l) = false := by
  intro n
  induction n with
  | zero => intro i p h; cases h
  | succ n ih =>
    intro i p h
    rw [probeFrom] at h
    by_cases hs : stops cells k (seq C cells.length k i) = true
    · rw [if_pos hs] at h
      injection h with h
      exact ⟨i, Nat.le_refl _, by omega, h, h ▸ hs, fun l h1 h2 => by omega⟩
    · rw [if_neg hs] at h
      obtain ⟨j, h1, h2, h3, h4, h5⟩ := ih (i + 1) p h
      refine ⟨j, by omega, by omega, h3, h4, fun l hl1 hl2 => ?_⟩
      by_cases e : l = i
      · rw [e]; simpa using hs
      · exact h5 l (by omega) hl2

theorem probeFrom_none {C : Cfg κ} {cells : List (Option (κ × Nat))} {k : κ} : ∀ (n i : Nat), probeFrom C cells k i n = none →
    ∀ j, i ≤ j → j < i + n → stops cells k (seq C cells.length k j) = false := by
  intro n
  induction n with
  | zero => intro i _ j h1 h2; omega
  | succ n ih =>
    intro i h j h1 h2
    rw [probeFrom] at h
    by_cases hs : stops cells k (seq C cells.length k i) = true
    · rw [if_pos hs] at h; cases h
    · rw [if_neg hs] at h
      by_cases e : j = i
      · rw [e]; simpa using hs
      · exact ih (i + 1) h j (by omega) (by omega)

/-- Where the search of a key ends in a well formed table: at its cell if it is stored, else at an empty cell (or outside). -/
theorem probe_cell {C : Cfg κ} {cells : List (Option (κ × Nat))} (W : WF C cells) {k : κ} {p : Nat} (h : probe C cells k = some p)
    {v : Nat} (hv : Has cells k v) : cells[p]? = some (some (k, v)) := by
  obtain ⟨j, -, -, h3, h4, h5⟩ := probeFrom_some _ _ _ h
  obtain ⟨q, hq⟩ := List.mem_iff_getElem?.1 hv
  obtain ⟨i, e, he⟩ := W.found q k v hq
  rcases Nat.lt_trichotomy i j with hl | hl | hl
  · have := h5 i (Nat.zero_le _) hl
    rw [e, stops, hq] at this
    simp at this
  · subst hl; rw [← h3, e]; exact hq
  · have := he j hl
    rw [h3, h4] at this
    cases this

theorem has_unique {C : Cfg κ} {cells : List (Option (κ × Nat))} (W : WF C cells) {k : κ} {p q : Nat} {v w : Nat}
    (h1 : cells[p]? = some (some (k, v))) (h2 : cells[q]? = some (some (k, w))) : p = q := by
  obtain ⟨i, e, he⟩ := W.found p k v h1
  obtain ⟨j, f, hf⟩ := W.found q k w h2
  rcases Nat.lt_trichotomy i j with hl | hl | hl
  · have := hf i hl; rw [e, stops, h1] at this; simp at this
  · subst hl; rw [← e, ← f]
  · have := he j hl; rw [f, stops, h2] at this; simp at this

theorem wf_fresh (C : Cfg κ) (s : Nat) : WF C (freshCells κ s) := by
  constructor
  intro p k v h
  rw [freshCells, List.getElem?_replicate] at h
  split at h <;> cases h

theorem has_fresh (s : Nat) (k : κ) (v : Nat) : ¬ Has (freshCells κ s) k v := by
  unfold Has freshCells
  intro h
  have := List.eq_of_mem_replicate h
  cases this

/-- Filling the empty cell at the end of the search. -/
theorem store_wf {C : Cfg κ} {cells : List (Option (κ × Nat))} (W : WF C cells) {k : κ} {p : Nat} (h : probe C cells k = some p)
    (he : cells[p]? = some none) {undef v : Nat} (hv : v ≠ undef) :
    WF C (store undef cells p k v) ∧ (∀ k' v', Has (store undef cells p k v) k' v' ↔ Has cells k' v' ∨ (k' = k ∧ v' = v)) := by
  have hp : p < cells.length := (List.getElem?_eq_some_iff.1 he).1
  have hl : (store undef cells p k v).length = cells.length := by simp [store]
  have hg : ∀ q, (store undef cells p k v)[q]? = if q = p then some (some (k, v)) else cells[q]? := by
    intro q
    rw [store, if_neg hv, List.getElem?_set]
    by_cases e : q = p
    · subst e; simp [hp]
    · simp [e, Ne.symm e]
  -- a cell that does not stop a search is full and keeps its contents
  have hst : ∀ k' q, stops cells k' q = false → stops (store undef cells p k v) k' q = false := by
    intro k' q hq
    have : q ≠ p := by
      intro e; rw [e, stops, he] at hq; cases hq
    rw [stops, hg, if_neg this]; exact hq
  obtain ⟨j, -, -, h3, h4, h5⟩ := probeFrom_some _ _ _ h
  constructor
  · constructor
    intro q k' v' hq
    rw [hg] at hq
    rw [hl]
    by_cases e : q = p
    · rw [if_pos e] at hq
      injection hq with hq; injection hq with hq; injection hq with h1 h2
      subst h1
      exact ⟨j, by rw [h3, e], fun l hlt => hst _ _ (h5 l (Nat.zero_le _) hlt)⟩
    · rw [if_neg e] at hq
      obtain ⟨i, e1, e2⟩ := W.found q k' v' hq
      exact ⟨i, e1, fun l hlt => hst _ _ (e2 l hlt)⟩
  · intro k' v'
    unfold Has
    rw [List.mem_iff_getElem?, List.mem_iff_getElem?]
    constructor
    · rintro ⟨q, hq⟩
      rw [hg] at hq
      by_cases e : q = p
      · rw [if_pos e] at hq
        injection hq with hq; injection hq with hq; injection hq with h1 h2
        exact Or.inr ⟨h1.symm, h2.symm⟩
      · rw [if_neg e] at hq
        exact Or.inl ⟨q, hq⟩
    · rintro (⟨q, hq⟩ | ⟨e1, e2⟩)
      · refine ⟨q, ?_⟩
        have : q ≠ p := by intro e; rw [e, he] at hq; cases hq
        rw [hg, if_neg this]; exact hq
      · refine ⟨p, ?_⟩
        rw [hg, if_pos rfl, e1, e2]

/-- The number of used cells. -/
def used (cells : List (Option (κ × Nat))) : Nat := cells.countP (·.isSome)

theorem used_store {cells : List (Option (κ × Nat))} {p undef v : Nat} {k : κ} (he : cells[p]? = some none) (hv : v ≠ undef) :
    used (store undef cells p k v) = used cells + 1 := by
  rw [store, if_neg hv]
  induction cells generalizing p with
  | nil => cases he
  | cons a l ih =>
    cases p with
    | zero =>
      have : a = none := by simpa using he
      subst this
      simp [used]
    | succ p =>
      have he : l[p]? = some none := by simpa using he
      have := ih he
      simp only [List.set_cons_succ, used, List.countP_cons] at this ⊢
      omega

theorem used_fresh (s : Nat) : used (freshCells κ s) = 0 := by
  rw [used, List.countP_eq_zero]
  intro a ha
  rw [List.eq_of_mem_replicate ha]; simp

/-- A table state in order. -/
structure Ok (C : Cfg κ) (undef : Nat) (T : Table κ σ) : Prop where
  wf : WF C T.cells
  cnt : T.entries = used T.cells
  vals : ∀ k v, Has T.cells k v → v ≠ undef

/-- What a correct `insert` does. -/
def InsSpec (C : Cfg κ) (undef : Nat) (ins : Table κ σ → κ → Nat → Res (Table κ σ × Nat × Bool)) : Prop :=
  ∀ T k v T' w b, Ok C undef T → v ≠ undef → ins T k v = .ok (T', w, b) →
    Ok C undef T' ∧
    (∀ u, Has T.cells k u → T'.cells = T.cells ∧ T'.entries = T.entries ∧ w = u ∧ b = false) ∧
    ((∀ u, ¬ Has T.cells k u) → w = v ∧ b = true ∧ T'.entries = T.entries + 1 ∧ ∀ k' v', Has T'.cells k' v' ↔ Has T.cells k' v' ∨ (k' = k ∧ v' = v))

/-- Moving the entries of a list of cells with distinct keys, none of which is in the table. -/
theorem moveAll_spec {C : Cfg κ} {undef : Nat} {ins : Table κ σ → κ → Nat → Res (Table κ σ × Nat × Bool)} (hi : InsSpec C undef ins) :
    ∀ (cs : List (Option (κ × Nat))) (T T' : Table κ σ), Ok C undef T → (cs.filterMap id).Pairwise (fun a b => a.1 ≠ b.1) →
      (∀ a ∈ cs.filterMap id, a.2 ≠ undef ∧ ∀ u, ¬ Has T.cells a.1 u) → moveAll ins cs T = .ok T' →
      Ok C undef T' ∧ T'.entries = T.entries + used cs ∧ ∀ k v, Has T'.cells k v ↔ Has T.cells k v ∨ some (k, v) ∈ cs := by
  intro cs
  induction cs with
  | nil =>
    intro T T' O _ _ h
    injection h with h; subst h
    exact ⟨O, rfl, by simp⟩
  | cons c cs ih =>
    intro T T' O hd hn h
    cases c with
    | none =>
      have := ih T T' O (by simpa using hd) (by simpa using hn) h
      refine ⟨this.1, by rw [this.2.1]; simp [used], fun k v => ?_⟩
      rw [this.2.2]; simp
    | some a =>
      obtain ⟨k, v⟩ := a
      rw [moveAll] at h
      cases e : ins T k v with
      | error f => rw [e] at h; cases h
      | ok r =>
        obtain ⟨T1, w, b⟩ := r
        rw [e] at h
        have hd' : (∀ a ∈ cs.filterMap id, k ≠ a.1) ∧ (cs.filterMap id).Pairwise (fun a b => a.1 ≠ b.1) := by
          simpa using hd
        have hk := hn (k, v) (by simp)
        obtain ⟨o1, -, o3⟩ := hi T k v T1 w b O hk.1 e
        obtain ⟨-, -, o5, o4⟩ := o3 hk.2
        have := ih T1 T' o1 hd'.2 ?_ h
        · refine ⟨this.1, by rw [this.2.1, o5]; simp [used]; omega, fun k' v' => ?_⟩
          rw [this.2.2, o4]
          simp only [List.mem_cons, Option.some.injEq, Prod.mk.injEq]
          exact or_assoc
        · intro a ha
          have h1 := hn a (by simp at ha ⊢; exact Or.inr ha)
          refine ⟨h1.1, fun u hu => ?_⟩
          rcases (o4 _ _).1 hu with h2 | ⟨h2, -⟩
          · exact h1.2 u h2
          · exact hd'.1 a ha h2.symm

theorem used_zero {cells : List (Option (κ × Nat))} (h : used cells = 0) (k : κ) (v : Nat) : ¬ Has cells k v := by
  intro hh
  rw [used, List.countP_eq_zero] at h
  exact h _ hh rfl

theorem distinct_of_wf {C : Cfg κ} {cells : List (Option (κ × Nat))} (W : WF C cells) :
    (cells.filterMap id).Pairwise (fun a b => a.1 ≠ b.1) := by
  rw [List.pairwise_filterMap]
  rw [List.pairwise_iff_getElem]
  intro i j hi hj hij a ha b hb e
  obtain ⟨k, v⟩ := a
  obtain ⟨k', w⟩ := b
  have e : k = k' := e
  subst e
  have h1 : cells[i]? = some (some (k, v)) := by rw [List.getElem?_eq_getElem hi]; exact congrArg some ha
  have h2 : cells[j]? = some (some (k, w)) := by rw [List.getElem?_eq_getElem hj]; exact congrArg some hb
  have := has_unique W h1 h2
  omega

theorem reserve_spec {C : Cfg κ} {undef : Nat} {ins : Table κ σ → κ → Nat → Res (Table κ σ × Nat × Bool)} (hi : InsSpec C undef ins)
    (T T' : Table κ σ) (hint : Nat) (O : Ok C undef T) (h : reserve C ins T hint = .ok T') :
    Ok C undef T' ∧ T'.entries = T.entries ∧ ∀ k v, Has T'.cells k v ↔ Has T.cells k v := by
  have O0 : ∀ s p, Ok C undef (σ := σ) { cells := freshCells κ s, entries := 0, pol := p } := fun s p =>
    ⟨wf_fresh C s, (used_fresh s).symm, fun k v hk => absurd hk (has_fresh s k v)⟩
  unfold reserve at h
  split at h
  · have := moveAll_spec hi T.cells _ T' (O0 _ _) (distinct_of_wf O.wf) ?_ h
    · refine ⟨this.1, by rw [this.2.1, O.cnt]; exact Nat.zero_add _, fun k v => ?_⟩
      rw [this.2.2]
      exact ⟨fun h => h.resolve_left (has_fresh _ k v), Or.inr⟩
    · intro a ha
      refine ⟨?_, fun u => has_fresh _ _ u⟩
      refine O.vals a.1 a.2 ?_
      rw [List.mem_filterMap] at ha
      obtain ⟨c, hc, e⟩ := ha
      have e : c = some a := e
      rw [e] at hc; exact hc
  · rename_i h0
    injection h with h
    subst h
    have hu : used T.cells = 0 := by have := O.cnt; omega
    refine ⟨⟨wf_fresh C _, ?_, fun k v hk => absurd hk (has_fresh _ k v)⟩, rfl, fun k v => ?_⟩
    · show T.entries = used (freshCells κ (C.minSize hint))
      rw [used_fresh, O.cnt, hu]
    · exact ⟨fun h => absurd h (has_fresh _ k v), fun h => absurd h (used_zero hu k v)⟩

theorem stops_true {cells : List (Option (κ × Nat))} {k k' : κ} {p w : Nat} (h : stops cells k p = true) (e : cells[p]? = some (some (k', w))) :
    k' = k := by
  rw [stops, e] at h
  simpa using h

/-- `insert` is correct whenever it returns, for every hash function, prober, size manager and growth policy. -/
theorem insert_spec (C : Cfg κ) (grow : Grow σ) (undef : Nat) : ∀ depth, InsSpec C undef (insert C grow undef depth) := by
  intro depth
  induction depth with
  | zero => intro T k v T' w b _ _ h; cases h
  | succ depth ih =>
    intro T k v T' w b O hv h
    rw [insert] at h
    cases hp : probe C T.cells k with
    | none => rw [hp] at h; cases h
    | some p =>
      rw [hp] at h
      dsimp only at h
      cases hc : T.cells[p]? with
      | none => rw [hc] at h; cases h
      | some c =>
        rw [hc] at h
        cases c with
        | some a =>
          obtain ⟨k', u⟩ := a
          dsimp only at h
          injection h with h
          injection h with h1 h2
          injection h2 with h2 h3
          subst h1 h2 h3
          obtain ⟨j, -, -, e3, e4, -⟩ := probeFrom_some _ _ _ hp
          have hk := stops_true e4 hc
          subst hk
          refine ⟨O, fun u' hu => ⟨rfl, rfl, ?_, rfl⟩, fun hn => absurd (List.mem_iff_getElem?.2 ⟨p, hc⟩) (hn u)⟩
          have := probe_cell O.wf hp hu
          rw [hc] at this
          injection this with this
          injection this with this
          injection this
        | none =>
          dsimp only at h
          have hnot : ∀ u, ¬ Has T.cells k u := by
            intro u hu
            have := probe_cell O.wf hp hu
            rw [hc] at this
            injection this with this
            cases this
          obtain ⟨W1, H1⟩ := store_wf O.wf hp hc hv
          have O1 : ∀ p', Ok C undef (σ := σ) { cells := store undef T.cells p k v, entries := T.entries + 1, pol := p' } := fun p' =>
            ⟨W1, by show T.entries + 1 = _; rw [used_store hc hv, O.cnt], fun k' v' h' => by
              rcases (H1 k' v').1 h' with h2 | ⟨-, h2⟩
              · exact O.vals k' v' h2
              · rw [h2]; exact hv⟩
          refine ⟨?_, fun u hu => absurd hu (hnot u), fun _ => ?_⟩
          all_goals
            cases hg : grow T.pol (store undef T.cells p k v).length (T.entries + 1) with
            | none =>
              rw [hg] at h
              dsimp only at h
              injection h with h
              injection h with h1 h2
              injection h2 with h2 h3
              subst h1 h2 h3
              first | exact O1 _ | exact ⟨rfl, rfl, rfl, H1⟩
            | some g =>
              obtain ⟨hint, pol⟩ := g
              rw [hg] at h
              dsimp only at h
              cases hr : reserve C (insert C grow undef depth) { cells := store undef T.cells p k v, entries := T.entries + 1, pol := pol } hint with
              | error f => rw [hr] at h; cases h
              | ok T2 =>
                rw [hr] at h
                dsimp only at h
                obtain ⟨R1, R3, R2⟩ := reserve_spec ih _ _ _ (O1 pol) hr
                cases hi : insert C grow undef depth T2 k v with
                | error f => rw [hi] at h; cases h
                | ok r =>
                  obtain ⟨T3, w3, b3⟩ := r
                  rw [hi] at h
                  dsimp only at h
                  injection h with h
                  injection h with h1 h2
                  injection h2 with h2 h3
                  subst h1 h2 h3
                  have hk : Has T2.cells k v := (R2 k v).2 ((H1 k v).2 (Or.inr ⟨rfl, rfl⟩))
                  obtain ⟨I1, I2, -⟩ := ih T2 k v T3 w3 b3 R1 hv hi
                  obtain ⟨J1, J3, J2, -⟩ := I2 v hk
                  first
                    | exact I1
                    | exact ⟨J2, rfl, by rw [J3, R3], fun k' v' => by rw [J1, R2]; exact H1 k' v'⟩

/-! ### Termination with linear probing -/

/-- A linear prober with a size manager that reduces modulo the table size, for table sizes in `adm`. -/
structure Lin (C : Cfg κ) (adm : Nat → Prop) : Prop where
  pos : ∀ s, adm s → 0 < s
  modT : ∀ s i k p, adm s → C.modT i s k p = i % s
  get : ∀ i p z s, C.get i p z s = p + 1

theorem seq_lin {C : Cfg κ} {adm : Nat → Prop} (L : Lin C adm) {s : Nat} (hs : adm s) (k : κ) (i : Nat) : seq C s k i = (C.hash k + i) % s := by
  induction i with
  | zero => rw [seq, L.modT _ _ _ _ hs]; rfl
  | succ i ih => rw [seq, L.modT _ _ _ _ hs, L.get, ih, Nat.mod_add_mod]; rfl

theorem probe_lin {C : Cfg κ} {adm : Nat → Prop} (L : Lin C adm) {cells : List (Option (κ × Nat))} (hs : adm cells.length)
    (hu : used cells < cells.length) (k : κ) : ∃ p, probe C cells k = some p ∧ p < cells.length := by
  have hpos := L.pos _ hs
  cases hp : probe C cells k with
  | some p =>
    obtain ⟨j, -, -, h3, -, -⟩ := probeFrom_some _ _ _ hp
    refine ⟨p, rfl, ?_⟩
    rw [← h3, seq_lin L hs]
    exact Nat.mod_lt _ hpos
  | none =>
    exfalso
    have hall := probeFrom_none _ _ hp
    -- an empty cell
    have : ∃ p, p < cells.length ∧ cells[p]? = some none := by
      by_contra hne
      push Not at hne
      have : used cells = cells.length := by
        rw [used, List.countP_eq_length]
        intro a ha
        obtain ⟨p, hp, e⟩ := List.mem_iff_getElem.1 ha
        cases a with
        | some a => rfl
        | none => exact absurd (by rw [List.getElem?_eq_getElem hp, e]) (hne p hp)
      omega
    obtain ⟨p, hpl, hpe⟩ := this
    have hi : (p + cells.length - C.hash k % cells.length) % cells.length < cells.length := Nat.mod_lt _ hpos
    have hb := hall ((p + cells.length - C.hash k % cells.length) % cells.length) (Nat.zero_le _) (by omega)
    rw [seq_lin L hs, ← Nat.mod_add_mod, Nat.add_mod_mod] at hb
    have hm := Nat.mod_lt (C.hash k) hpos
    rw [show C.hash k % cells.length + (p + cells.length - C.hash k % cells.length) = p + cells.length by omega,
      Nat.add_mod_right, Nat.mod_eq_of_lt hpl, stops, hpe] at hb
    cases hb

/-- A growth policy that grows before the table is full, always grows, and does not grow for ever: for at most `N` entries, tables of `B` or
more cells do not grow.  `I` is an invariant of the policy state. -/
structure PolOk (C : Cfg κ) (grow : Grow σ) (adm : Nat → Prop) (I : σ → Prop) (N B : Nat) : Prop where
  room : ∀ p s e, I p → adm s → grow p s e = none → e < s
  grows : ∀ p s e h p', I p → adm s → s < B → grow p s e = some (h, p') → s < C.minSize h ∧ adm (C.minSize h)
  inv : ∀ p s e h p', I p → grow p s e = some (h, p') → I p'
  stop : ∀ p s e, I p → e ≤ N → B ≤ s → grow p s e = none

/-- The states between operations. -/
structure Ready (C : Cfg κ) (undef : Nat) (adm : Nat → Prop) (I : σ → Prop) (T : Table κ σ) : Prop where
  ok : Ok C undef T
  adm : adm T.cells.length
  room : T.entries < T.cells.length
  inv : I T.pol

theorem moveAll_total {C : Cfg κ} {undef N m : Nat} {adm : Nat → Prop} {I : σ → Prop}
    {ins : Table κ σ → κ → Nat → Res (Table κ σ × Nat × Bool)} (hi : InsSpec C undef ins)
    (ht : ∀ T k v, Ready C undef adm I T → m ≤ T.cells.length → T.entries + 1 ≤ N → v ≠ undef →
      ∃ T' w b, ins T k v = .ok (T', w, b) ∧ Ready C undef adm I T' ∧ T.cells.length ≤ T'.cells.length) :
    ∀ (cs : List (Option (κ × Nat))) (T : Table κ σ), Ready C undef adm I T → m ≤ T.cells.length → T.entries + used cs ≤ N →
      (∀ k v, some (k, v) ∈ cs → v ≠ undef) →
      ∃ T', moveAll ins cs T = .ok T' ∧ Ready C undef adm I T' ∧ T.cells.length ≤ T'.cells.length := by
  intro cs
  induction cs with
  | nil => intro T R _ _ _; exact ⟨T, rfl, R, Nat.le_refl _⟩
  | cons c cs ih =>
    intro T R hm hN hv
    cases c with
    | none => exact ih T R hm (by simpa [used] using hN) (fun k v h => hv k v (by simp [h]))
    | some a =>
      obtain ⟨k, v⟩ := a
      have hN' : T.entries + (used cs + 1) ≤ N := by simpa [used] using hN
      obtain ⟨T1, w, b, e1, R1, l1⟩ := ht T k v R hm (by omega) (hv k v (by simp))
      have he : T1.entries ≤ T.entries + 1 := by
        obtain ⟨-, s1, s2⟩ := hi T k v T1 w b R.ok (hv k v (by simp)) e1
        by_cases hh : ∃ u, Has T.cells k u
        · obtain ⟨u, hu⟩ := hh
          rw [(s1 u hu).2.1]; omega
        · push Not at hh
          exact Nat.le_of_eq (s2 hh).2.2.1
      obtain ⟨T2, e2, R2, l2⟩ := ih T1 R1 (by omega) (by omega) (fun k v h => hv k v (by simp [h]))
      refine ⟨T2, ?_, R2, by omega⟩
      rw [moveAll, e1]; exact e2

theorem insert_total {C : Cfg κ} {grow : Grow σ} {undef N B : Nat} {adm : Nat → Prop} {I : σ → Prop} (L : Lin C adm) (P : PolOk C grow adm I N B) :
    ∀ (d : Nat) (T : Table κ σ) (k : κ) (v : Nat), Ready C undef adm I T → B ≤ T.cells.length + d → T.entries + 1 ≤ N → v ≠ undef →
      ∃ T' w b, insert C grow undef (d + 2) T k v = .ok (T', w, b) ∧ Ready C undef adm I T' ∧ T.cells.length ≤ T'.cells.length := by
  intro d
  induction d with
  | zero =>
    intro T k v R hB hN hv
    obtain ⟨p, hp, hpl⟩ := probe_lin L R.adm (by rw [← R.ok.cnt]; exact R.room) k
    rw [insert, hp]
    dsimp only
    cases hc : T.cells[p]? with
    | none => rw [List.getElem?_eq_none_iff] at hc; omega
    | some c =>
      cases c with
      | some a => exact ⟨T, a.2, false, rfl, R, Nat.le_refl _⟩
      | none =>
        dsimp only
        have hl : (store undef T.cells p k v).length = T.cells.length := by simp [store]
        have hg : grow T.pol (store undef T.cells p k v).length (T.entries + 1) = none :=
          P.stop _ _ _ R.inv hN (by rw [hl]; omega)
        rw [hg]
        have e : insert C grow undef 1 T k v = .ok ({ T with cells := store undef T.cells p k v, entries := T.entries + 1 }, v, true) := by
          rw [insert, hp]; dsimp only; rw [hc]; dsimp only; rw [hg]
        refine ⟨_, _, _, rfl, ⟨(insert_spec C grow undef 1 T k v _ _ _ R.ok hv e).1, ?_, ?_, R.inv⟩, ?_⟩
        · show adm (store undef T.cells p k v).length
          rw [hl]; exact R.adm
        · show T.entries + 1 < (store undef T.cells p k v).length
          exact P.room _ _ _ R.inv (by rw [hl]; exact R.adm) hg
        · show T.cells.length ≤ (store undef T.cells p k v).length
          omega
  | succ d ih =>
    intro T k v R hB hN hv
    obtain ⟨p, hp, hpl⟩ := probe_lin L R.adm (by rw [← R.ok.cnt]; exact R.room) k
    rw [insert, hp]
    dsimp only
    cases hc : T.cells[p]? with
    | none => rw [List.getElem?_eq_none_iff] at hc; omega
    | some c =>
      cases c with
      | some a => exact ⟨T, a.2, false, rfl, R, Nat.le_refl _⟩
      | none =>
        dsimp only
        have hl : (store undef T.cells p k v).length = T.cells.length := by simp [store]
        have hadm : adm (store undef T.cells p k v).length := by rw [hl]; exact R.adm
        obtain ⟨W1, H1⟩ := store_wf R.ok.wf hp hc hv
        have O1 : ∀ p', Ok C undef (σ := σ) { cells := store undef T.cells p k v, entries := T.entries + 1, pol := p' } := fun p' =>
          ⟨W1, by show T.entries + 1 = _; rw [used_store hc hv, R.ok.cnt], fun k' v' h' => by
            rcases (H1 k' v').1 h' with h2 | ⟨-, h2⟩
            · exact R.ok.vals k' v' h2
            · rw [h2]; exact hv⟩
        cases hg : grow T.pol (store undef T.cells p k v).length (T.entries + 1) with
        | none =>
          exact ⟨_, _, _, rfl, ⟨O1 _, hadm, P.room _ _ _ R.inv hadm hg, R.inv⟩, by show _ ≤ (store undef T.cells p k v).length; omega⟩
        | some g =>
          obtain ⟨hint, pol⟩ := g
          dsimp only
          have hsB : (store undef T.cells p k v).length < B := by
            by_contra hge
            rw [P.stop _ _ _ R.inv hN (by omega)] at hg
            cases hg
          obtain ⟨hgr, hga⟩ := P.grows _ _ _ _ _ R.inv hadm hsB hg
          have hinv := P.inv _ _ _ _ _ R.inv hg
          rw [hl] at hgr
          have hlen : (freshCells κ (C.minSize hint)).length = C.minSize hint := by simp [freshCells]
          have R0 : Ready C undef adm I (σ := σ) { cells := freshCells κ (C.minSize hint), entries := 0, pol := pol } :=
            ⟨⟨wf_fresh C _, (used_fresh _).symm, fun k v hk => absurd hk (has_fresh _ k v)⟩, by rw [hlen]; exact hga,
              by rw [hlen]; exact L.pos _ hga, hinv⟩
          have hN' : 0 + used (store undef T.cells p k v) ≤ N := by
            rw [used_store hc hv, ← R.ok.cnt]; omega
          obtain ⟨T2, e2, R2, l2⟩ := moveAll_total (m := T.cells.length + 1) (insert_spec C grow undef (d + 2))
            (fun T' k' v' RT hm hn hv' => ih T' k' v' RT (by omega) hn hv') (store undef T.cells p k v) _ R0
            (by rw [hlen]; omega) hN' (fun k' v' h' => (O1 T.pol).vals k' v' h')
          have l2 : (freshCells κ (C.minSize hint)).length ≤ T2.cells.length := l2
          rw [hlen] at l2
          have er : reserve C (insert C grow undef (d + 2)) { cells := store undef T.cells p k v, entries := T.entries + 1, pol := pol } hint = .ok T2 := by
            rw [reserve, if_pos (by show T.entries + 1 > 0; omega)]; exact e2
          rw [er]
          dsimp only
          -- the pair is found
          obtain ⟨-, E2, HH⟩ := reserve_spec (insert_spec C grow undef (d + 2)) _ _ _ (O1 pol) er
          have hk : Has T2.cells k v := (HH k v).2 ((H1 k v).2 (Or.inr ⟨rfl, rfl⟩))
          obtain ⟨q, hq, hql⟩ := probe_lin L R2.adm (by rw [← R2.ok.cnt]; exact R2.room) k
          have hcell := probe_cell R2.ok.wf hq hk
          have ei : insert C grow undef (d + 2) T2 k v = .ok (T2, v, false) := by
            rw [insert, hq]; dsimp only; rw [hcell]
          rw [ei]
          exact ⟨T2, v, true, rfl, R2, by omega⟩

/-! ### The result does not depend on the bound on the recursion depth -/

theorem moveAll_mono {f g : Table κ σ → κ → Nat → Res (Table κ σ × Nat × Bool)} (h : ∀ T k v r, f T k v = .ok r → g T k v = .ok r) :
    ∀ (cs : List (Option (κ × Nat))) (T T' : Table κ σ), moveAll f cs T = .ok T' → moveAll g cs T = .ok T' := by
  intro cs
  induction cs with
  | nil => intro T T' e; exact e
  | cons c cs ih =>
    intro T T' e
    cases c with
    | none => exact ih T T' e
    | some a =>
      obtain ⟨k, v⟩ := a
      rw [moveAll] at e ⊢
      cases e1 : f T k v with
      | error x => rw [e1] at e; cases e
      | ok r =>
        rw [e1] at e
        rw [h _ _ _ _ e1]
        exact ih _ _ e

theorem insert_mono (C : Cfg κ) (grow : Grow σ) (undef : Nat) : ∀ (d : Nat) (T : Table κ σ) (k : κ) (v : Nat) r,
    insert C grow undef d T k v = .ok r → insert C grow undef (d + 1) T k v = .ok r := by
  intro d
  induction d with
  | zero => intro T k v r h; cases h
  | succ d ih =>
    intro T k v r h
    rw [insert] at h ⊢
    cases hp : probe C T.cells k with
    | none => rw [hp] at h; cases h
    | some p =>
      rw [hp] at h
      dsimp only at h ⊢
      cases hc : T.cells[p]? with
      | none => rw [hc] at h; cases h
      | some c =>
        rw [hc] at h
        cases c with
        | some a => exact h
        | none =>
          dsimp only at h ⊢
          cases hg : grow T.pol (store undef T.cells p k v).length (T.entries + 1) with
          | none => rw [hg] at h; exact h
          | some g =>
            obtain ⟨hint, pol⟩ := g
            rw [hg] at h
            dsimp only at h ⊢
            cases hr : reserve C (insert C grow undef d) { cells := store undef T.cells p k v, entries := T.entries + 1, pol := pol } hint with
            | error f => rw [hr] at h; cases h
            | ok T2 =>
              have hr' : reserve C (insert C grow undef (d + 1)) { cells := store undef T.cells p k v, entries := T.entries + 1, pol := pol } hint = .ok T2 := by
                unfold reserve at hr ⊢
                split at hr
                · rename_i h0
                  rw [if_pos h0]; exact moveAll_mono ih _ _ _ hr
                · rename_i h0
                  rw [if_neg h0]; exact hr
              rw [hr] at h
              rw [hr']
              dsimp only at h ⊢
              cases hi : insert C grow undef d T2 k v with
              | error f => rw [hi] at h; cases h
              | ok r2 => rw [hi] at h; rw [ih _ _ _ _ hi]; exact h

theorem insert_mono_le (C : Cfg κ) (grow : Grow σ) (undef : Nat) {d d' : Nat} (hd : d ≤ d') (T : Table κ σ) (k : κ) (v : Nat) r
    (h : insert C grow undef d T k v = .ok r) : insert C grow undef d' T k v = .ok r := by
  induction d', hd using Nat.le_induction with
  | base => exact h
  | succ n _ ih => exact insert_mono C grow undef n T k v r ih

end HM
end Tdc
