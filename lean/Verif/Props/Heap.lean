import Verif.Lemmas.Heap
import Mathlib.Data.Finset.Card
import Mathlib.Data.Finset.Insert
import Mathlib.Data.Finset.Range

/-!
# Property C31: `ArrayMaxHeap`

The specification is a finite set of items with a list of keys.
-/

namespace Tdc
namespace AMH

/-- The abstract state: the keys and the set of items in the heap. -/
structure Abs where
  keys : List Nat
  items : Finset Nat

/-- What the operations mean. -/
def Abs.step (a : Abs) : Op → Abs
  | .insert i => { a with items := insert i a.items }
  | .remove i => { a with items := a.items.erase i }
  | .decreaseKey i v => { a with keys := a.keys.set i v }

/-- The history applied to the specification. -/
def Abs.run (a : Abs) (ops : List Op) : Abs := ops.foldl Abs.step a

/-- The documented preconditions, and that keys are positive: the inserted item is not in the heap, the capacity is not exceeded, and
`decrease_key` does not increase the key. -/
def Abs.Allowed (cap : Nat) (a : Abs) : Op → Prop
  | .insert i => i < a.keys.length ∧ i ∉ a.items ∧ a.items.card < cap ∧ 0 < a.keys.getD i 0
  | .remove i => i < a.keys.length
  | .decreaseKey i v => i < a.keys.length ∧ 0 < v ∧ v ≤ a.keys.getD i 0

/-- A history in which every operation is allowed. -/
def Abs.Valid (cap : Nat) (a : Abs) : List Op → Prop
  | [] => True
  | o :: os => a.Allowed cap o ∧ (a.step o).Valid cap os

/-- An item with the largest key. -/
def Abs.IsMax (a : Abs) (m : Nat) : Prop := m ∈ a.items ∧ ∀ j ∈ a.items, a.keys.getD j 0 ≤ a.keys.getD m 0

/-- A history that only removes items that have the largest key at that time (or are not in the heap). -/
def Abs.MaxRemovals (a : Abs) : List Op → Prop
  | [] => True
  | o :: os => (∀ i, o = .remove i → i ∈ a.items → a.IsMax i) ∧ (a.step o).MaxRemovals os

/-- The observations of a heap agree with the specification, except for the order. -/
def Agrees (h : Heap) (a : Abs) : Prop :=
  h.size = a.items.card ∧ (∀ i < a.keys.length, h.contains i = .ok (decide (i ∈ a.items)) ∧ h.key i = .ok (a.keys.getD i 0)) ∧
  (a.items.Nonempty → ∃ m ∈ a.items, h.getMax = .ok m)

/-! ### Refinement -/

structure Rel (o : Prop) (cap : Nat) (h : Heap) (a : Abs) : Prop where
  good : Good o h
  keys : h.keys = a.keys
  undef : h.undef = cap
  size : h.size = a.items.card
  mem : ∀ j < a.keys.length, (h.P j ≠ cap ↔ j ∈ a.items)
  sub : ∀ j ∈ a.items, j < a.keys.length

theorem rel_init (o : Prop) (keys : List Nat) (cap : Nat) (hk : keys.length < 2 ^ 64) (hc : cap < 2 ^ 64) :
    Rel o cap (Heap.init keys cap) ⟨keys, ∅⟩ := by
  refine ⟨init_good o keys cap hk hc, rfl, rfl, rfl, ?_, by simp⟩
  intro j hj
  have e : cap % 2 ^ bitsFor cap = cap := Nat.mod_eq_of_lt (lt_two_pow_bitsFor cap hc)
  have hj : j < keys.length := hj
  simp [Heap.P, Heap.init, e, hj]

theorem rel_step {o : Prop} {cap : Nat} {h : Heap} {a : Abs} (R : Rel o cap h a) (op : Op) (hv : a.Allowed cap op)
    (hm : o → ∀ i, op = .remove i → i ∈ a.items → a.IsMax i) :
    ∃ h', h.step op = .ok h' ∧ Rel o cap h' (a.step op) := by
  have hkl : h.keys.length = a.keys.length := by rw [R.keys]
  have hK : ∀ j, h.K j = a.keys.getD j 0 := by intro j; unfold Heap.K; rw [R.keys]
  cases op with
  | insert i =>
    obtain ⟨v1, v2, v3, v4⟩ := hv
    have hn : h.P i = h.undef := by
      by_contra hne
      rw [R.undef] at hne
      exact v2 ((R.mem i v1).1 hne)
    obtain ⟨h', e1, e2, e3, e4, e5, e6⟩ := insert_good R.good (by omega) hn (by rw [R.size, R.undef]; exact v3) (by rw [hK]; exact v4)
    refine ⟨h', e1, e2, by rw [e3]; exact R.keys, by rw [e4]; exact R.undef, ?_, ?_, ?_⟩
    · rw [e5, R.size]; exact (Finset.card_insert_of_notMem v2).symm
    · intro j hj
      have hj : j < a.keys.length := hj
      have := e6 j (by omega)
      rw [R.undef] at this
      have h2 := R.mem j hj
      show _ ↔ j ∈ insert i a.items
      rw [Finset.mem_insert, ← h2]
      constructor
      · intro h3
        by_contra h4
        push Not at h4
        exact h3 (this.2 ⟨h4.1, h4.2⟩)
      · intro h3 h4
        have := this.1 h4
        rcases h3 with h3 | h3
        · exact this.1 h3
        · exact h3 this.2
    · intro j hj
      rcases Finset.mem_insert.1 hj with h3 | h3
      · rw [h3]; exact v1
      · exact R.sub j h3
  | remove i =>
    have v1 : i < a.keys.length := hv
    by_cases hn : h.P i = h.undef
    · have hni : i ∉ a.items := by
        intro h3
        exact ((R.mem i v1).2 h3) (by rw [hn, R.undef])
      refine ⟨h, remove_absent R.good.shape (by omega) hn, ?_⟩
      have : a.step (.remove i) = a := by
        show ({ a with items := a.items.erase i } : Abs) = a
        rw [Finset.erase_eq_of_notMem hni]
      rw [this]; exact R
    · have hin : i ∈ a.items := (R.mem i v1).1 (by rw [← R.undef]; exact hn)
      obtain ⟨h', e1, e2, e3, e4, e5, e6⟩ := remove_good R.good (by omega) hn (by
        intro ho hp0 hpl
        have hM := (hm ho i rfl hin).2
        rcases R.good.back i (by omega) (by omega) with g | ⟨g1, g2⟩
        · exact absurd g hn
        · have hb := R.good.ord ho (h.P i) g1 hp0
          rw [g2] at hb
          have hl := R.good.items (h.size - 1) (by omega)
          have hmem : h.H (h.size - 1) ∈ a.items := by
            refine (R.mem _ (by omega)).1 ?_
            rw [hl.2.1, ← R.undef]
            have := R.good.shape.size
            omega
          have := hM _ hmem
          rw [← hK, ← hK] at this
          exact le_trans this hb)
      refine ⟨h', e1, e2, by rw [e3]; exact R.keys, by rw [e4]; exact R.undef, ?_, ?_, ?_⟩
      · rw [e5, R.size]; exact (Finset.card_erase_of_mem hin).symm
      · intro j hj
        have hj : j < a.keys.length := hj
        have := e6 j (by omega)
        rw [R.undef] at this
        have h2 := R.mem j hj
        show _ ↔ j ∈ a.items.erase i
        rw [Finset.mem_erase, ← h2]
        constructor
        · intro h3
          constructor
          · intro h4; exact h3 (this.2 (Or.inl h4))
          · intro h4; exact h3 (this.2 (Or.inr h4))
        · intro h3 h4
          rcases this.1 h4 with h5 | h5
          · exact h3.1 h5
          · exact h3.2 h5
      · intro j hj
        exact R.sub j (Finset.mem_of_mem_erase hj)
  | decreaseKey i v =>
    obtain ⟨v1, v2, v3⟩ := hv
    have fin : ∀ h' : Heap, Good o h' → h'.keys = h.keys.set i v → h'.undef = h.undef → h'.size = h.size →
        (∀ j < h.keys.length, (h'.P j = h.undef ↔ h.P j = h.undef)) → Rel o cap h' (a.step (.decreaseKey i v)) := by
      intro h' e2 e3 e4 e5 e6
      refine ⟨e2, by rw [e3, R.keys]; rfl, by rw [e4]; exact R.undef, by rw [e5, R.size]; rfl, ?_, ?_⟩
      · intro j hj
        have hj : j < a.keys.length := by simpa [Abs.step] using hj
        have := e6 j (by omega)
        rw [R.undef] at this
        show _ ↔ j ∈ a.items
        rw [← R.mem j hj, ne_eq, ne_eq, this]
      · intro j hj
        have := R.sub j hj
        simpa [Abs.step] using this
    by_cases hn : h.P i = h.undef
    · obtain ⟨h', e1, e2, e3, e4, e5, e6⟩ := decreaseKey_absent R.good (v := v) (by omega) hn
      exact ⟨h', e1, fin h' e2 e3 e4 e5 e6⟩
    · obtain ⟨h', e1, e2, e3, e4, e5, e6⟩ := decreaseKey_good R.good (by omega) hn v2 (fun _ => by rw [hK]; exact v3)
      exact ⟨h', e1, fin h' e2 e3 e4 e5 e6⟩

theorem rel_run {o : Prop} {cap : Nat} (ops : List Op) : ∀ {h : Heap} {a : Abs}, Rel o cap h a → a.Valid cap ops → (o → a.MaxRemovals ops) →
    ∃ h', h.run ops = .ok h' ∧ Rel o cap h' (a.run ops) := by
  induction ops with
  | nil => intro h a R _ _; exact ⟨h, rfl, R⟩
  | cons op ops ih =>
    intro h a R hv hm
    obtain ⟨h1, e1, R1⟩ := rel_step R op hv.1 (fun ho => (hm ho).1)
    obtain ⟨h2, e2, R2⟩ := ih R1 hv.2 (fun ho => (hm ho).2)
    refine ⟨h2, ?_, R2⟩
    rw [Heap.run, e1]; exact e2

theorem Rel.top {o : Prop} {cap : Nat} {h : Heap} {a : Abs} (R : Rel o cap h a) (hne : a.items.Nonempty) :
    h.getMax = .ok (h.H 0) ∧ h.H 0 ∈ a.items := by
  have hs : 0 < h.size := by rw [R.size]; exact Finset.card_pos.2 hne
  have := R.good.shape.size
  obtain ⟨i1, i2, _⟩ := R.good.items 0 hs
  refine ⟨rd_ok (by rw [R.good.shape.heap]; omega), (R.mem _ (by rw [← R.keys]; exact i1)).1 ?_⟩
  rw [i2, ← R.undef]; omega

theorem Rel.agrees {o : Prop} {cap : Nat} {h : Heap} {a : Abs} (R : Rel o cap h a) : Agrees h a := by
  refine ⟨R.size, ?_, ?_⟩
  · intro i hi
    constructor
    · rw [Heap.contains, rd_ok (by rw [R.good.shape.pos, R.keys]; exact hi)]
      show Except.ok (decide (h.P i ≠ h.undef)) = _
      rw [R.undef]
      congr 1
      exact decide_eq_decide.2 (R.mem i hi)
    · rw [Heap.key, rd_ok (by rw [R.keys]; exact hi), R.keys]
  · intro hne
    exact ⟨_, (R.top hne).2, (R.top hne).1⟩

/-- **C31 (the set of items).** For every key array, capacity and allowed history of `insert`, `remove` and `decrease_key` with positive
keys: no access leaves the vectors and every loop ends; afterwards `contains`, `size` and `key` are those of the set of items and their
keys, and `get_max` is an item of the heap.  That it is a *largest* item is `heap_max_partial`, under a condition that the documentation
does not mention and without which it is false (`heap_max_broken`). -/
theorem heap_set_partial (keys : List Nat) (cap : Nat) (hk : keys.length < 2 ^ 64) (hc : cap < 2 ^ 64) (ops : List Op)
    (hv : (⟨keys, ∅⟩ : Abs).Valid cap ops) :
    ∃ h, (Heap.init keys cap).run ops = .ok h ∧ Agrees h ((⟨keys, ∅⟩ : Abs).run ops) := by
  obtain ⟨h, e, R⟩ := rel_run (o := False) ops (rel_init False keys cap hk hc) hv (fun h => h.elim)
  exact ⟨h, e, R.agrees⟩

/-- **C31 (the maximum).** If moreover only items with the largest key are removed, `get_max` always is an item with the largest key. -/
theorem heap_max_partial (keys : List Nat) (cap : Nat) (hk : keys.length < 2 ^ 64) (hc : cap < 2 ^ 64) (ops : List Op)
    (hv : (⟨keys, ∅⟩ : Abs).Valid cap ops) (hm : (⟨keys, ∅⟩ : Abs).MaxRemovals ops) :
    ∃ h, (Heap.init keys cap).run ops = .ok h ∧ Agrees h ((⟨keys, ∅⟩ : Abs).run ops) ∧
      (((⟨keys, ∅⟩ : Abs).run ops).items.Nonempty → ∃ m, h.getMax = .ok m ∧ ((⟨keys, ∅⟩ : Abs).run ops).IsMax m) := by
  obtain ⟨h, e, R⟩ := rel_run (o := True) ops (rel_init True keys cap hk hc) hv (fun _ => hm)
  refine ⟨h, e, R.agrees, fun hne => ⟨_, (R.top hne).1, (R.top hne).2, ?_⟩⟩
  intro j hj
  have hj1 := R.sub j hj
  have h2 := (R.mem j hj1).2 hj
  rcases R.good.back j (by rw [R.keys]; exact hj1) (by rw [R.keys]; omega) with g | ⟨g1, g2⟩
  · rw [R.undef] at g; exact absurd g h2
  · have := top_max R.good (h.P j) g1
    rw [g2] at this
    unfold Heap.K at this
    rw [R.keys] at this
    exact this

/-- The full property: in every allowed history with positive keys `get_max` is an item with the largest key. -/
def HeapCorrect : Prop := ∀ (keys : List Nat) (cap : Nat), keys.length < 2 ^ 64 → cap < 2 ^ 64 → ∀ ops : List Op,
  (⟨keys, ∅⟩ : Abs).Valid cap ops → ((⟨keys, ∅⟩ : Abs).run ops).items.Nonempty →
  ∃ h m, (Heap.init keys cap).run ops = .ok h ∧ h.getMax = .ok m ∧ ((⟨keys, ∅⟩ : Abs).run ops).IsMax m

/-- A history that removes an item that is not the largest. -/
def badOps : List Op := [.insert 0, .insert 1, .insert 2, .insert 3, .insert 4, .insert 5, .remove 3, .decreaseKey 2 1, .decreaseKey 0 2]

theorem bad_valid : (⟨[10, 3, 9, 2, 1, 8], ∅⟩ : Abs).Valid 6 badOps := by
  simp only [badOps, Abs.Valid, Abs.Allowed, Abs.step]
  decide

/-- **C31, negation.** `remove` moves the last item of the heap to the position of the removed one and only percolates it *down*: after
removing an item that is not the largest, `get_max` can return an item that is not the largest. -/
theorem heap_max_broken : ¬ HeapCorrect := by
  intro H
  obtain ⟨h, m, e1, e2, _, e3⟩ := H [10, 3, 9, 2, 1, 8] 6 (by decide) (by decide) badOps bad_valid (by decide)
  have r : ((Heap.init [10, 3, 9, 2, 1, 8] 6).run badOps).bind (fun h => h.getMax) = .ok 1 := by decide +kernel
  rw [e1] at r
  have r : h.getMax = .ok 1 := r
  rw [e2] at r
  injection r with r
  subst r
  have := e3 5 (by decide)
  revert this
  decide

theorem heap_len_put {h h' : Heap} {p i : Nat} (e : h.put p i = .ok h') : h'.heap.length = h.heap.length := by
  unfold Heap.put wr at e
  split at e
  · simp only [bind, Except.bind] at e
    split at e
    · cases e
    · rename_i v e2
      injection e with e
      rw [← e]; simp
  · cases e

theorem put_err {h : Heap} {p i : Nat} {e : Fault} (he : h.put p i = .error e) : e = .ub := by
  unfold Heap.put wr at he
  split at he
  · simp only [bind, Except.bind] at he
    split at he
    · rename_i e2
      split at e2
      · cases e2
      · injection e2 with e2; injection he with he; rw [← he, e2]
    · cases he
  · injection he with he; exact he.symm

theorem rd_err {v : List Nat} {i : Nat} {e : Fault} (he : rd v i = .error e) : e = .ub := by
  unfold rd at he
  split at he
  · cases he
  · injection he with he; exact he.symm

theorem childKey_err {h : Heap} {c : Nat} {e : Fault} (he : h.childKey c = .error e) : e = .ub := by
  unfold Heap.childKey Heap.keyAt at he
  split at he
  · cases e1 : rd h.heap c with
    | error f => rw [e1] at he; injection he with he; rw [← he]; exact rd_err e1
    | ok i => rw [e1] at he; exact rd_err he
  · cases he

theorem dir_zero (k l r p : Nat) : dir k 0 l r p ≠ .none := by
  unfold dir
  split_ifs <;> first | (intro h; cases h; done) | omega

theorem percDownLoop_zero (k : Nat) : ∀ (fuel : Nat) (h : Heap) (p : Nat), h.heap.length < fuel + p → 0 < fuel →
    percDownLoop k 0 fuel h p = .error .ub := by
  intro fuel
  induction fuel with
  | zero => intro h p _ h0; exact absurd h0 (Nat.lt_irrefl 0)
  | succ fuel ih =>
    intro h p hl _
    have go : ∀ c, p < c → (do let j ← rd h.heap c; let h ← h.put p j; percDownLoop k 0 fuel h c : Res Heap) = .error .ub := by
      intro c hc
      by_cases hcl : c < h.heap.length
      · rw [rd_ok hcl]
        show (do let h ← h.put p (h.heap.getD c 0); percDownLoop k 0 fuel h c : Res Heap) = _
        cases e : h.put p (h.heap.getD c 0) with
        | error f => rw [put_err e]; rfl
        | ok h' => exact ih h' c (by rw [heap_len_put e]; omega) (by omega)
      · rw [rd_ub (by omega)]; rfl
    rw [percDownLoop]
    cases e1 : h.childKey (lc p) with
    | error f => rw [childKey_err e1]; rfl
    | ok l =>
      cases e2 : h.childKey (rc p) with
      | error f => rw [childKey_err e2]; rfl
      | ok r =>
        show (match dir k 0 l r p with | .left => _ | .right => _ | .none => _ : Res Heap) = _
        cases e3 : dir k 0 l r p with
        | none => exact absurd e3 (dir_zero k l r p)
        | left => exact go (lc p) (by unfold lc; omega)
        | right => exact go (rc p) (by unfold rc; omega)

/-- **C31, keys must be positive.** After every allowed history, `decrease_key(i, 0)` of an item in the heap *always* leaves the vector:
the percolation treats missing children as children with key 0 and descends into them. -/
theorem heap_zero_key_ub (keys : List Nat) (cap : Nat) (hk : keys.length < 2 ^ 64) (hc : cap < 2 ^ 64) (ops : List Op)
    (hv : (⟨keys, ∅⟩ : Abs).Valid cap ops) (i : Nat) (hi : i ∈ ((⟨keys, ∅⟩ : Abs).run ops).items) :
    ((Heap.init keys cap).run ops).bind (fun h => h.decreaseKey i 0) = .error .ub := by
  obtain ⟨h, e, R⟩ := rel_run (o := False) ops (rel_init False keys cap hk hc) hv (fun h => h.elim)
  have h1 := R.sub i hi
  have h2 := (R.mem i h1).2 hi
  rw [e]
  show h.decreaseKey i 0 = _
  have hkl : i < h.keys.length := by rw [R.keys]; exact h1
  rw [Heap.decreaseKey, rd_ok hkl]
  show (do let pos ← rd h.pos i
           if pos = h.undef then pure { h with keys := h.keys.set i 0 } else ({ h with keys := h.keys.set i 0 } : Heap).percDown pos i : Res Heap) = _
  rw [rd_ok (by rw [R.good.shape.pos]; exact hkl)]
  show (if h.P i = h.undef then _ else _ : Res Heap) = _
  rw [if_neg (by rw [R.undef]; exact h2), Heap.percDown, rd_ok (by simpa using hkl)]
  have e0 : (h.keys.set i 0).getD i 0 = 0 := by rw [getD_set _ _ _ _ hkl, if_pos rfl]
  show percDownLoop i ((h.keys.set i 0).getD i 0) (h.heap.length + 1) { h with keys := h.keys.set i 0 } (h.P i) = _
  rw [e0]
  exact percDownLoop_zero i _ _ _ (by show h.heap.length < _; omega) (by omega)

/-! ### Non-vacuity -/

/-- A history with ties, a decreased key and removals of the maximum. -/
def goodOps : List Op := [.insert 1, .insert 3, .insert 0, .insert 2, .decreaseKey 3 4, .remove 0, .insert 4, .remove 1, .remove 0]

example : (⟨[7, 7, 3, 7, 5, 4], ∅⟩ : Abs).Valid 5 goodOps := by
  simp only [goodOps, Abs.Valid, Abs.Allowed, Abs.step]
  decide

example : (⟨[7, 7, 3, 7, 5, 4], ∅⟩ : Abs).MaxRemovals goodOps := by
  simp only [goodOps, Abs.MaxRemovals, Abs.step, Abs.IsMax]
  refine ⟨by simp, by simp, by simp, by simp, by simp, ?_, by simp, ?_, ?_, trivial⟩
  all_goals
    intro i hi
    injection hi with hi
    subst hi
    decide

example : ((Heap.init [7, 7, 3, 7, 5, 4] 5).run goodOps).bind (fun h => h.getMax) = .ok 4 := by decide +kernel

example : ((Heap.init [10, 3, 9, 2, 1, 8] 6).run badOps).bind (fun h => h.decreaseKey 5 0) = .error .ub := by decide +kernel

end AMH
end Tdc
