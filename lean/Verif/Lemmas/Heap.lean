import Verif.Model.Heap
import Verif.Lemmas.Select
import Mathlib.Tactic.ByContra

/-! # Invariants of `ArrayMaxHeap` -/

namespace Tdc
namespace AMH

theorem rd_ok {v : List Nat} {i : Nat} (h : i < v.length) : rd v i = .ok (v.getD i 0) := by
  simp [rd, h]

theorem rd_ub {v : List Nat} {i : Nat} (h : v.length ≤ i) : rd v i = .error .ub := by
  simp [rd, h]

theorem getD_set (v : List Nat) (i x j : Nat) (hi : i < v.length) : (v.set i x).getD j 0 = if j = i then x else v.getD j 0 := by
  by_cases e : j = i
  · subst e; simp [hi]
  · simp [List.getElem?_set, e, Ne.symm e]

/-- the item at a heap position -/
def Heap.H (h : Heap) (p : Nat) : Nat := h.heap.getD p 0
/-- the recorded position of an item -/
def Heap.P (h : Heap) (i : Nat) : Nat := h.pos.getD i 0
/-- the key of an item -/
def Heap.K (h : Heap) (i : Nat) : Nat := h.keys.getD i 0

structure Shape (h : Heap) : Prop where
  heap : h.heap.length = h.undef
  pos : h.pos.length = h.keys.length
  size : h.size ≤ h.undef
  kb : h.keys.length < 2 ^ 64
  ub : h.undef < 2 ^ 64

theorem put_ok {h : Heap} (S : Shape h) {p i : Nat} (hp : p < h.undef) (hi : i < h.keys.length) :
    h.put p i = .ok { h with heap := h.heap.set p i, pos := h.pos.set i p } := by
  have h1 : i % 2 ^ h.wHeap = i := Nat.mod_eq_of_lt (by
    have := lt_two_pow_bitsFor (h.keys.length - 1) (by have := S.kb; omega)
    unfold Heap.wHeap; omega)
  have h2 : p % 2 ^ h.wPos = p := Nat.mod_eq_of_lt (by
    have := lt_two_pow_bitsFor h.undef S.ub
    unfold Heap.wPos; omega)
  simp [Heap.put, wr, S.heap, S.pos, hp, hi, h1, h2, bind, Except.bind, pure, Except.pure]

/-- A heap with a hole at position `p`, where item `k` is to be put; item `x` is being removed (`x = k` if none is).  The clauses about
the order are needed only if `o` holds. -/
structure Hole (o : Prop) (h : Heap) (k x p : Nat) : Prop where
  shape : Shape h
  plt : p < h.size
  items : ∀ q < h.size, q ≠ p → h.H q < h.keys.length ∧ h.P (h.H q) = q ∧ 0 < h.K (h.H q) ∧ h.H q ≠ k ∧ h.H q ≠ x
  klt : k < h.keys.length
  kpos : 0 < h.K k
  back : ∀ j < h.keys.length, j ≠ k → j ≠ x → h.P j = h.undef ∨ (h.P j < h.size ∧ h.P j ≠ p ∧ h.H (h.P j) = j)
  ord : o → ∀ q < h.size, 0 < q → q ≠ p → parent q ≠ p → h.K (h.H q) ≤ h.K (h.H (parent q))
  ordc : o → 0 < p → ∀ q < h.size, 0 < q → parent q = p → h.K (h.H q) ≤ h.K (h.H (parent p))
  ordk : o → 0 < p → h.K k ≤ h.K (h.H (parent p))

/-- The invariant of a heap in which item `x` is being removed (no item, if `x` is not below the number of keys). -/
structure Inv (o : Prop) (h : Heap) (x : Nat) : Prop where
  shape : Shape h
  items : ∀ q < h.size, h.H q < h.keys.length ∧ h.P (h.H q) = q ∧ 0 < h.K (h.H q) ∧ h.H q ≠ x
  back : ∀ j < h.keys.length, j ≠ x → h.P j = h.undef ∨ (h.P j < h.size ∧ h.H (h.P j) = j)
  ord : o → ∀ q < h.size, 0 < q → h.K (h.H q) ≤ h.K (h.H (parent q))

theorem parent_lt {q : Nat} (h : 0 < q) : parent q < q := by unfold parent; omega

/-- heap after `put` -/
def Heap.putv (h : Heap) (p i : Nat) : Heap := { h with heap := h.heap.set p i, pos := h.pos.set i p }

theorem putv_H {h : Heap} (S : Shape h) {p i : Nat} (hp : p < h.undef) (q : Nat) : (h.putv p i).H q = if q = p then i else h.H q :=
  getD_set _ _ _ _ (by rw [S.heap]; exact hp)
theorem putv_P {h : Heap} (S : Shape h) {p i : Nat} (hi : i < h.keys.length) (j : Nat) : (h.putv p i).P j = if j = i then p else h.P j :=
  getD_set _ _ _ _ (by rw [S.pos]; exact hi)
theorem putv_K {h : Heap} {p i : Nat} (j : Nat) : (h.putv p i).K j = h.K j := rfl
theorem putv_shape {h : Heap} (S : Shape h) (p i : Nat) : Shape (h.putv p i) :=
  ⟨by simp [Heap.putv, S.heap], by simp [Heap.putv, S.pos], S.size, S.kb, S.ub⟩

theorem putv_ne {h : Heap} (S : Shape h) {p i j : Nat} (hi : i < h.keys.length) (hp : p < h.undef) (hj : h.P j ≠ h.undef) :
    (h.putv p i).P j ≠ h.undef := by
  rw [putv_P S hi]
  split
  · omega
  · exact hj

theorem hole_step {o : Prop} {h : Heap} {k x p c : Nat} (I : Hole o h k x p) (hc : c < h.size) (hc0 : 0 < c) (hcp : parent c = p)
    (hk : o → h.K k ≤ h.K (h.H c)) (hs : o → ∀ q < h.size, 0 < q → parent q = p → h.K (h.H q) ≤ h.K (h.H c)) :
    Hole o (h.putv p (h.H c)) k x c := by
  have hpc : p ≠ c := by have := parent_lt hc0; omega
  have hpu : p < h.undef := lt_of_lt_of_le I.plt I.shape.size
  obtain ⟨c1, c2, c3, c4, c5⟩ := I.items c hc (Ne.symm hpc)
  have eH := putv_H (i := h.H c) I.shape hpu
  have eP := putv_P (p := p) I.shape c1
  have szd : (h.putv p (h.H c)).size = h.size := rfl
  have ud : (h.putv p (h.H c)).undef = h.undef := rfl
  have kl : (h.putv p (h.H c)).keys = h.keys := rfl
  refine ⟨putv_shape I.shape _ _, hc, ?_, I.klt, I.kpos, ?_, ?_, ?_, ?_⟩
  · intro q hq hqc
    rw [szd] at hq
    simp only [eH, eP, putv_K, kl]
    by_cases e : q = p
    · simp only [e, if_true]; exact ⟨c1, trivial, c3, c4, c5⟩
    · obtain ⟨d1, d2, d3, d4, d5⟩ := I.items q hq e
      simp only [if_neg e]
      refine ⟨d1, ?_, d3, d4, d5⟩
      rw [if_neg]
      · exact d2
      · intro e2
        rw [e2, c2] at d2; exact hqc d2.symm
  · intro j hj hjk hjx
    simp only [eH, eP, szd, ud]
    by_cases e : j = h.H c
    · right; simp only [e, if_true]; exact ⟨I.plt, hpc, trivial⟩
    · simp only [if_neg e]
      rcases I.back j hj hjk hjx with h1 | ⟨h1, h2, h3⟩
      · exact Or.inl h1
      · right
        refine ⟨h1, ?_, ?_⟩
        · intro e3; apply e; rw [← e3, h3]
        · rw [if_neg h2, h3]
  · intro ho q hq hq0 hqc hpqc
    rw [szd] at hq
    simp only [eH, putv_K]
    by_cases e : q = p
    · subst e
      have hpq := parent_lt hq0
      rw [if_pos rfl, if_neg (by omega)]
      exact I.ordc ho hq0 c hc hc0 hcp
    · rw [if_neg e]
      by_cases e2 : parent q = p
      · rw [if_pos e2]; exact hs ho q hq hq0 e2
      · rw [if_neg e2]; exact I.ord ho q hq hq0 e e2
  · intro ho _ q hq hq0 hpq
    rw [szd] at hq
    simp only [eH, putv_K, hcp, if_true]
    have := parent_lt hq0
    have hcq : parent c < c := parent_lt hc0
    rw [if_neg (by omega)]
    have := I.ord ho q hq hq0 (by omega) (by omega)
    rwa [hpq] at this
  · intro ho _
    simp only [eH, putv_K, hcp, if_true]
    exact hk ho

theorem hole_done {o : Prop} {h : Heap} {k x p : Nat} (I : Hole o h k x p)
    (hs : o → ∀ q < h.size, 0 < q → parent q = p → h.K (h.H q) ≤ h.K k) :
    Inv o (h.putv p k) (if x = k then h.keys.length else x) := by
  have hpu : p < h.undef := lt_of_lt_of_le I.plt I.shape.size
  have eH := putv_H (i := k) I.shape hpu
  have eP := putv_P (p := p) I.shape I.klt
  have szd : (h.putv p k).size = h.size := rfl
  have ud : (h.putv p k).undef = h.undef := rfl
  have kl : (h.putv p k).keys = h.keys := rfl
  refine ⟨putv_shape I.shape _ _, ?_, ?_, ?_⟩
  · intro q hq
    rw [szd] at hq
    simp only [eH, eP, putv_K, kl]
    by_cases e : q = p
    · subst e
      simp only [if_true]
      refine ⟨I.klt, trivial, I.kpos, ?_⟩
      split
      · exact Nat.ne_of_lt I.klt
      · rename_i hn; exact fun e => hn e.symm
    · obtain ⟨d1, d2, d3, d4, d5⟩ := I.items q hq e
      simp only [if_neg e, if_neg d4]
      refine ⟨d1, d2, d3, ?_⟩
      split
      · exact Nat.ne_of_lt d1
      · exact d5
  · intro j hj hjx
    rw [kl] at hj
    simp only [eH, eP, szd, ud]
    by_cases e : j = k
    · right; simp only [e, if_true]; exact ⟨I.plt, trivial⟩
    · simp only [if_neg e]
      have hjx' : j ≠ x := by
        split at hjx
        · rename_i h1; rw [h1]; exact e
        · exact hjx
      rcases I.back j hj e hjx' with h1 | ⟨h1, h2, h3⟩
      · exact Or.inl h1
      · right; rw [if_neg h2]; exact ⟨h1, h3⟩
  · intro ho q hq hq0
    rw [szd] at hq
    simp only [eH, putv_K]
    by_cases e : q = p
    · subst e
      have hpq := parent_lt hq0
      rw [if_pos rfl, if_neg (by omega)]
      exact I.ordk ho hq0
    · rw [if_neg e]
      by_cases e2 : parent q = p
      · rw [if_pos e2]; exact hs ho q hq hq0 e2
      · rw [if_neg e2]; exact I.ord ho q hq hq0 e e2

theorem child_cases {q p : Nat} (hq : 0 < q) (h : parent q = p) : q = lc p ∨ q = rc p := by
  unfold parent at h; unfold lc rc; omega

theorem parent_lc (p : Nat) : parent (lc p) = p := by unfold parent lc; omega
theorem parent_rc (p : Nat) : parent (rc p) = p := by unfold parent rc; omega

theorem childKey_ok {o : Prop} {h : Heap} {k x p c : Nat} (I : Hole o h k x p) (hc : p < c) :
    h.childKey c = .ok (if c < h.size then h.K (h.H c) else 0) := by
  unfold Heap.childKey
  by_cases e : c < h.size
  · obtain ⟨d1, _⟩ := I.items c e (by omega)
    have hl : c < h.heap.length := by rw [I.shape.heap]; have := I.shape.size; omega
    rw [if_pos e, if_pos e, Heap.keyAt, rd_ok hl]
    exact rd_ok d1
  · rw [if_neg e, if_neg e]

theorem percDownLoop_inv (o : Prop) (k x : Nat) : ∀ (fuel : Nat) (h : Heap) (p : Nat), Hole o h k x p → h.undef < fuel + p →
    ∃ h', percDownLoop k (h.K k) fuel h p = .ok h' ∧ Inv o h' (if x = k then h.keys.length else x) ∧ h'.keys = h.keys ∧ h'.undef = h.undef ∧
      h'.size = h.size ∧ h'.P k ≠ h.undef ∧
      (∀ j < h.keys.length, j ≠ k → (∀ q < h.size, q ≠ p → h.H q ≠ j) → h'.P j = h.P j) ∧
          (∀ j, h.P j ≠ h.undef → h'.P j ≠ h.undef) := by
  intro fuel
  induction fuel with
  | zero => intro h p I hf; have := I.plt; have := I.shape.size; omega
  | succ fuel ih =>
    intro h p I hf
    have hl := childKey_ok I (c := lc p) (by unfold lc; omega)
    have hr := childKey_ok I (c := rc p) (by unfold rc; omega)
    have hpu : p < h.undef := lt_of_lt_of_le I.plt I.shape.size
    -- going down to child c
    have go : ∀ c, c < h.size → p < c → parent c = p → (o → h.K k ≤ h.K (h.H c)) →
        (o → ∀ q < h.size, 0 < q → parent q = p → h.K (h.H q) ≤ h.K (h.H c)) →
        ∃ h', (do let j ← rd h.heap c; let h' ← h.put p j; percDownLoop k (h.K k) fuel h' c : Res Heap) = .ok h' ∧
          Inv o h' (if x = k then h.keys.length else x) ∧ h'.keys = h.keys ∧ h'.undef = h.undef ∧
          h'.size = h.size ∧ h'.P k ≠ h.undef ∧
          (∀ j < h.keys.length, j ≠ k → (∀ q < h.size, q ≠ p → h.H q ≠ j) → h'.P j = h.P j) ∧
          (∀ j, h.P j ≠ h.undef → h'.P j ≠ h.undef) := by
      intro c hc hpc hcp hk hs
      have I' := hole_step I hc (by omega) hcp hk hs
      obtain ⟨c1, c2, c3, c4, c5⟩ := I.items c hc (by omega)
      have hlen : c < h.heap.length := by rw [I.shape.heap]; have := I.shape.size; omega
      have e1 : (do let j ← rd h.heap c; let h' ← h.put p j; percDownLoop k (h.K k) fuel h' c : Res Heap) =
          percDownLoop k ((h.putv p (h.H c)).K k) fuel (h.putv p (h.H c)) c := by
        rw [rd_ok hlen]
        show (do let h' ← h.put p (h.H c); percDownLoop k (h.K k) fuel h' c : Res Heap) = _
        rw [put_ok I.shape hpu c1]; rfl
      rw [e1]
      have hf' : (h.putv p (h.H c)).undef < fuel + c := by
        show h.undef < fuel + c
        omega
      obtain ⟨h', r1, r2, r3, r4, r5, r6, r7, r8⟩ := ih _ _ I' hf'
      refine ⟨h', r1, r2, r3, r4, r5, r6, ?_, fun j hj => r8 j (putv_ne I.shape c1 hpu hj)⟩
      intro j hj hjk hq
      have eH := putv_H (i := h.H c) I.shape hpu
      have eP := putv_P (p := p) I.shape c1
      have hjc : j ≠ h.H c := fun e => hq c hc (by omega) e.symm
      rw [r7 j hj hjk ?_, eP, if_neg hjc]
      intro q hqs hqc
      rw [eH]
      by_cases e : q = p
      · rw [if_pos e]; exact fun e => hjc e.symm
      · rw [if_neg e]; exact hq q hqs e
    have done : (o → ∀ q < h.size, 0 < q → parent q = p → h.K (h.H q) ≤ h.K k) →
        ∃ h', h.put p k = .ok h' ∧
          Inv o h' (if x = k then h.keys.length else x) ∧ h'.keys = h.keys ∧ h'.undef = h.undef ∧
          h'.size = h.size ∧ h'.P k ≠ h.undef ∧
          (∀ j < h.keys.length, j ≠ k → (∀ q < h.size, q ≠ p → h.H q ≠ j) → h'.P j = h.P j) ∧
          (∀ j, h.P j ≠ h.undef → h'.P j ≠ h.undef) := by
      intro hs
      refine ⟨h.putv p k, put_ok I.shape hpu I.klt, hole_done I hs, rfl, rfl, rfl, ?_, ?_, fun j hj => putv_ne I.shape I.klt hpu hj⟩
      · rw [putv_P I.shape I.klt, if_pos rfl]; omega
      · intro j _ hjk _
        rw [putv_P I.shape I.klt, if_neg hjk]
    have e0 : percDownLoop k (h.K k) (fuel + 1) h p =
        (match dir k (h.K k) (if lc p < h.size then h.K (h.H (lc p)) else 0) (if rc p < h.size then h.K (h.H (rc p)) else 0) p with
          | .left => (do let j ← rd h.heap (lc p); let h' ← h.put p j; percDownLoop k (h.K k) fuel h' (lc p) : Res Heap)
          | .right => (do let j ← rd h.heap (rc p); let h' ← h.put p j; percDownLoop k (h.K k) fuel h' (rc p) : Res Heap)
          | .none => h.put p k) := by
      rw [percDownLoop, hl, hr]
      rfl
    rw [e0]
    have hkp := I.kpos
    have hlt : lc p < rc p := by unfold lc rc; omega
    have hpl : p < lc p := by unfold lc; omega
    have kidsL : ∀ v, h.K (h.H (lc p)) ≤ v ∨ ¬ lc p < h.size → h.K (h.H (rc p)) ≤ v ∨ ¬ rc p < h.size →
        ∀ q < h.size, 0 < q → parent q = p → h.K (h.H q) ≤ v := by
      intro v h1 h2 q hq hq0 hqp
      rcases child_cases hq0 hqp with e | e
      · subst e; rcases h1 with h1 | h1
        · exact h1
        · exact absurd hq h1
      · subst e; rcases h2 with h2 | h2
        · exact h2
        · exact absurd hq h2
    clear e0
    generalize (if x = k then h.keys.length else x) = y at go done ⊢
    unfold dir
    by_cases hL : lc p < h.size <;> by_cases hR : rc p < h.size
    · simp only [hL, hR, if_true]
      have GL := go (lc p) hL hpl (parent_lc p)
      have GR := go (rc p) hR (by omega) (parent_rc p)
      split_ifs <;>
      first
        | (exact GL (fun _ => by omega) (fun _ => kidsL _ (by omega) (by omega)))
        | (exact GR (fun _ => by omega) (fun _ => kidsL _ (by omega) (by omega)))
        | (exact done (fun _ => kidsL _ (by omega) (by omega)))
        | omega
    · simp only [hL, hR, if_true, if_false]
      have GL := go (lc p) hL hpl (parent_lc p)
      split_ifs <;>
      first
        | omega
        | (exact GL (fun _ => by omega) (fun _ => kidsL _ (by omega) (by omega)))
        | (exact done (fun _ => kidsL _ (by omega) (by omega)))
    · omega
    · simp only [hL, hR, if_false]
      split_ifs <;>
      first
        | omega
        | (exact done (fun _ => kidsL _ (by omega) (by omega)))

/-- A heap with a hole during the percolation upwards of the new item `k`. -/
structure HoleUp (o : Prop) (h : Heap) (k p : Nat) : Prop where
  shape : Shape h
  plt : p < h.size
  items : ∀ q < h.size, q ≠ p → h.H q < h.keys.length ∧ h.P (h.H q) = q ∧ 0 < h.K (h.H q) ∧ h.H q ≠ k
  klt : k < h.keys.length
  kpos : 0 < h.K k
  back : ∀ j < h.keys.length, j ≠ k → h.P j = h.undef ∨ (h.P j < h.size ∧ h.P j ≠ p ∧ h.H (h.P j) = j)
  ord : o → ∀ q < h.size, 0 < q → q ≠ p → parent q ≠ p → h.K (h.H q) ≤ h.K (h.H (parent q))
  ordc : o → ∀ q < h.size, 0 < q → parent q = p → h.K (h.H q) ≤ h.K k
  ordg : o → 0 < p → ∀ q < h.size, 0 < q → parent q = p → h.K (h.H q) ≤ h.K (h.H (parent p))

theorem holeUp_step {o : Prop} {h : Heap} {k p : Nat} (I : HoleUp o h k p) (hp0 : 0 < p) (hk : h.K (h.H (parent p)) < h.K k) :
    HoleUp o (h.putv p (h.H (parent p))) k (parent p) := by
  have hpp := parent_lt hp0
  have hlt := I.plt
  have hpu : p < h.undef := lt_of_lt_of_le I.plt I.shape.size
  obtain ⟨c1, c2, c3, c4⟩ := I.items (parent p) (by omega) (by omega)
  have eH := putv_H (i := h.H (parent p)) I.shape hpu
  have eP := putv_P (p := p) I.shape c1
  have szd : (h.putv p (h.H (parent p))).size = h.size := rfl
  have ud : (h.putv p (h.H (parent p))).undef = h.undef := rfl
  have kl : (h.putv p (h.H (parent p))).keys = h.keys := rfl
  refine ⟨putv_shape I.shape _ _, ?_, ?_, I.klt, I.kpos, ?_, ?_, ?_, ?_⟩
  · rw [szd]; omega
  · intro q hq hqc
    rw [szd] at hq
    simp only [eH, eP, putv_K, kl]
    by_cases e : q = p
    · simp only [e, if_true]; exact ⟨c1, trivial, c3, c4⟩
    · obtain ⟨d1, d2, d3, d4⟩ := I.items q hq e
      simp only [if_neg e]
      refine ⟨d1, ?_, d3, d4⟩
      rw [if_neg]
      · exact d2
      · intro e2
        rw [e2, c2] at d2; exact hqc d2.symm
  · intro j hj hjk
    simp only [eH, eP, szd, ud]
    by_cases e : j = h.H (parent p)
    · right; simp only [e, if_true]; exact ⟨I.plt, by omega, trivial⟩
    · simp only [if_neg e]
      rcases I.back j hj hjk with h1 | ⟨h1, h2, h3⟩
      · exact Or.inl h1
      · right
        refine ⟨h1, ?_, ?_⟩
        · intro e3; apply e; rw [← e3, h3]
        · rw [if_neg h2, h3]
  · intro ho q hq hq0 hqc hpqc
    rw [szd] at hq
    simp only [eH, putv_K]
    by_cases e : q = p
    · exact absurd (by rw [e]) hpqc
    · rw [if_neg e]
      by_cases e2 : parent q = p
      · rw [if_pos e2]; exact I.ordg ho hp0 q hq hq0 e2
      · rw [if_neg e2]; exact I.ord ho q hq hq0 e e2
  · intro ho q hq hq0 hpq
    rw [szd] at hq
    simp only [eH, putv_K]
    by_cases e : q = p
    · rw [if_pos e]; omega
    · rw [if_neg e]
      have := I.ord ho q hq hq0 e (by omega)
      rw [hpq] at this
      omega
  · intro ho hpp0 q hq hq0 hpq
    rw [szd] at hq
    have h2 := parent_lt hpp0
    have h3 := I.ord ho (parent p) (by omega) hpp0 (by omega) (by omega)
    simp only [eH, putv_K]
    rw [if_neg (show parent (parent p) ≠ p by omega)]
    by_cases e : q = p
    · rw [if_pos e]; exact h3
    · rw [if_neg e]
      have := I.ord ho q hq hq0 e (by omega)
      rw [hpq] at this
      omega

theorem percUp_inv (o : Prop) (k : Nat) : ∀ (p : Nat) (h : Heap), HoleUp o h k p →
    ∃ h' p', percUp h (h.K k) p = .ok (h', p') ∧ Hole o h' k k p' ∧ h'.keys = h.keys ∧ h'.undef = h.undef ∧
      h'.size = h.size ∧ (∀ q < h'.size, 0 < q → o → parent q = p' → h'.K (h'.H q) ≤ h'.K k) ∧
      (∀ j < h.keys.length, j ≠ k → (∀ q < h.size, q ≠ p → h.H q ≠ j) → h'.P j = h.P j) ∧
          (∀ j, h.P j ≠ h.undef → h'.P j ≠ h.undef) := by
  intro p
  induction p using Nat.strong_induction_on with
  | _ p ih =>
    intro h I
    have stop : (o → 0 < p → h.K k ≤ h.K (h.H (parent p))) → Hole o h k k p := by
      intro hk
      refine ⟨I.shape, I.plt, fun q hq hqp => ?_, I.klt, I.kpos, fun j hj hjk _ => I.back j hj hjk, I.ord, ?_, hk⟩
      · obtain ⟨a, b, c, d⟩ := I.items q hq hqp; exact ⟨a, b, c, d, d⟩
      · intro ho hp0 q hq hq0 hqp
        exact le_trans (I.ordc ho q hq hq0 hqp) (hk ho hp0)
    rw [percUp]
    by_cases hp0 : p = 0
    · subst hp0
      rw [dif_pos rfl]
      exact ⟨h, 0, rfl, stop (fun _ h0 => absurd h0 (Nat.lt_irrefl 0)), rfl, rfl, rfl, fun q hq hq0 ho e => I.ordc ho q hq hq0 e, fun _ _ _ _ => rfl, fun _ h => h⟩
    · rw [dif_neg hp0]
      have hpp := parent_lt (Nat.pos_of_ne_zero hp0)
      have hlt := I.plt
      have hsz := I.shape.size
      have hpu : p < h.undef := by omega
      obtain ⟨c1, c2, c3, c4⟩ := I.items (parent p) (by omega) (by omega)
      have hlen : parent p < h.heap.length := by rw [I.shape.heap]; omega
      have e1 : h.keyAt (parent p) = .ok (h.K (h.H (parent p))) := by
        rw [Heap.keyAt, rd_ok hlen]; exact rd_ok c1
      rw [e1]
      dsimp only
      by_cases hk : h.K k > h.K (h.H (parent p))
      · rw [if_pos hk, rd_ok hlen]
        dsimp only
        rw [show h.heap.getD (parent p) 0 = h.H (parent p) from rfl, put_ok I.shape hpu c1]
        dsimp only
        have I' := holeUp_step I (Nat.pos_of_ne_zero hp0) hk
        obtain ⟨h', p', r1, r2, r3, r4, r5, r6, r7, r8⟩ := ih _ hpp _ I'
        refine ⟨h', p', r1, r2, r3, r4, r5, r6, ?_, fun j hj => r8 j (putv_ne I.shape c1 hpu hj)⟩
        intro j hj hjk hq
        have hjc : j ≠ h.H (parent p) := fun e => hq _ (by omega) (by omega) e.symm
        rw [r7 j hj hjk ?_, putv_P I.shape c1, if_neg hjc]
        intro q hqs hqc
        rw [putv_H I.shape hpu]
        by_cases e : q = p
        · rw [if_pos e]; exact fun e => hjc e.symm
        · rw [if_neg e]; exact hq q hqs e
      · rw [if_neg hk]
        exact ⟨h, p, rfl, stop (fun _ _ => by omega), rfl, rfl, rfl, fun q hq hq0 ho e => I.ordc ho q hq hq0 e, fun _ _ _ _ => rfl, fun _ h => h⟩

/-- A well formed heap outside of operations. -/
def Good (o : Prop) (h : Heap) : Prop := Inv o h h.keys.length

theorem init_good (o : Prop) (keys : List Nat) (cap : Nat) (hk : keys.length < 2 ^ 64) (hc : cap < 2 ^ 64) : Good o (Heap.init keys cap) := by
  have e : cap % 2 ^ bitsFor cap = cap := Nat.mod_eq_of_lt (lt_two_pow_bitsFor cap hc)
  refine ⟨⟨by simp [Heap.init], by simp [Heap.init], by simp [Heap.init], hk, hc⟩, ?_, ?_, ?_⟩
  · intro q hq; exact absurd hq (Nat.not_lt_zero _)
  · intro j hj _
    left
    have hj : j < keys.length := hj
    simp [Heap.P, Heap.init, e, hj]
  · intro _ q hq; exact absurd hq (Nat.not_lt_zero _)

theorem insert_good {o : Prop} {h : Heap} (G : Good o h) {i : Nat} (hi : i < h.keys.length) (hn : h.P i = h.undef)
    (hs : h.size < h.undef) (hk : 0 < h.K i) :
    ∃ h', h.insert i = .ok h' ∧ Good o h' ∧ h'.keys = h.keys ∧ h'.undef = h.undef ∧ h'.size = h.size + 1 ∧
      (∀ j < h.keys.length, (h'.P j = h.undef ↔ j ≠ i ∧ h.P j = h.undef)) := by
  have hb := G.back
  have hit := G.items
  -- no item of the heap is i
  have hni : ∀ q < h.size, h.H q ≠ i := by
    intro q hq e
    have := (hit q hq).2.1
    rw [e, hn] at this
    have := G.shape.size
    omega
  have I : HoleUp o { h with size := h.size + 1 } i h.size := by
    refine ⟨⟨G.shape.heap, G.shape.pos, hs, G.shape.kb, G.shape.ub⟩, Nat.lt_succ_self _, ?_, hi, hk, ?_, ?_, ?_, ?_⟩
    · intro q hq hq2
      have hq : q < h.size + 1 := hq
      have hq' : q < h.size := by omega
      obtain ⟨a, b, c, d⟩ := hit q hq'
      exact ⟨a, b, c, hni q hq'⟩
    · intro j hj hji
      have hj : j < h.keys.length := hj
      rcases hb j hj (by omega) with h1 | ⟨h1, h2⟩
      · exact Or.inl h1
      · right
        exact ⟨Nat.lt_succ_of_lt h1, Nat.ne_of_lt h1, h2⟩
    · intro ho q hq hq0 hq2 _
      have hq : q < h.size + 1 := hq
      exact G.ord ho q (by omega) hq0
    · intro ho q hq hq0 hqp
      have hq : q < h.size + 1 := hq
      have := parent_lt hq0
      omega
    · intro ho _ q hq hq0 hqp
      have hq : q < h.size + 1 := hq
      have := parent_lt hq0
      omega
  obtain ⟨h', p', r1, r2, r3, r4, r5, r6, r7, r8⟩ := percUp_inv o i h.size _ I
  have r1 : percUp { h with size := h.size + 1 } (h.K i) h.size = .ok (h', p') := r1
  have hp' : p' < h'.undef := lt_of_lt_of_le r2.plt r2.shape.size
  have D := hole_done r2 (fun ho q hq hq0 hqp => r6 q hq hq0 ho hqp)
  rw [if_pos rfl] at D
  refine ⟨h'.putv p' i, ?_, D, r3, r4, r5, ?_⟩
  · rw [Heap.insert, rd_ok hi]
    show (do let (h, pos) ← percUp { h with size := h.size + 1 } (h.K i) h.size; h.put pos i : Res Heap) = _
    rw [r1]
    exact put_ok r2.shape hp' r2.klt
  · intro j hj
    rw [putv_P r2.shape r2.klt]
    by_cases e : j = i
    · rw [if_pos e]
      have : h'.undef = h.undef := r4
      constructor
      · intro e2; omega
      · intro e2; exact absurd e e2.1
    · rw [if_neg e]
      constructor
      · intro h1
        refine ⟨e, ?_⟩
        by_contra h2
        exact r8 j h2 h1
      · intro ⟨_, h1⟩
        rw [← h1]
        refine r7 j hj e ?_
        intro q hq hq2 e2
        have hq : q < h.size + 1 := hq
        have h3 := (hit q (by omega)).2.1
        have e2 : h.H q = j := e2
        rw [e2, h1] at h3
        have := G.shape.size
        omega

/-- `decrease_key` on an item of the heap. -/
theorem decreaseKey_good {o : Prop} {h : Heap} (G : Good o h) {i v : Nat} (hi : i < h.keys.length) (hn : h.P i ≠ h.undef)
    (hv : 0 < v) (hle : o → v ≤ h.K i) :
    ∃ h', h.decreaseKey i v = .ok h' ∧ Good o h' ∧ h'.keys = h.keys.set i v ∧ h'.undef = h.undef ∧ h'.size = h.size ∧
      (∀ j < h.keys.length, (h'.P j = h.undef ↔ h.P j = h.undef)) := by
  rcases G.back i hi (by omega) with h1 | ⟨h1, h2⟩
  · exact absurd h1 hn
  have ul := G.shape.size
  have eK : ∀ j, ({ h with keys := h.keys.set i v } : Heap).K j = if j = i then v else h.K j := fun j => getD_set _ _ _ _ hi
  have inj : ∀ q < h.size, q ≠ h.P i → h.H q ≠ i := by
    intro q hq hqi e
    have := (G.items q hq).2.1
    rw [e] at this
    exact hqi this.symm
  have I : Hole o { h with keys := h.keys.set i v } i i (h.P i) := by
    refine ⟨⟨G.shape.heap, by simp [G.shape.pos], G.shape.size, by simpa using G.shape.kb, G.shape.ub⟩, h1, ?_, by simpa using hi, ?_, ?_, ?_, ?_, ?_⟩
    · intro q hq hqi
      obtain ⟨a, b, c, d⟩ := G.items q hq
      have hne := inj q hq hqi
      refine ⟨by rw [List.length_set]; exact a, b, ?_, hne, hne⟩
      rw [eK]
      show 0 < if h.H q = i then v else h.K (h.H q)
      rw [if_neg hne]; exact c
    · rw [eK, if_pos rfl]; exact hv
    · intro j hj hji _
      have hj : j < h.keys.length := by simpa using hj
      rcases G.back j hj (by omega) with g1 | ⟨g1, g2⟩
      · exact Or.inl g1
      · right
        refine ⟨g1, ?_, g2⟩
        intro e
        have e : h.P j = h.P i := e
        rw [e, h2] at g2
        exact hji g2.symm
    · intro ho q hq hq0 hqp hpq
      have := parent_lt hq0
      have hq : q < h.size := hq
      have n1 := inj q hq hqp
      have n2 := inj (parent q) (by omega) hpq
      simp only [eK]
      show (if h.H q = i then v else h.K (h.H q)) ≤ if h.H (parent q) = i then v else h.K (h.H (parent q))
      rw [if_neg n1, if_neg n2]
      exact G.ord ho q hq hq0
    · intro ho hp0 q hq hq0 hpq
      have a1 := parent_lt hq0
      have a2 := parent_lt hp0
      have hq : q < h.size := hq
      have n1 := inj q hq (by omega)
      have n2 := inj (parent (h.P i)) (by omega) (by omega)
      simp only [eK]
      show (if h.H q = i then v else h.K (h.H q)) ≤ if h.H (parent (h.P i)) = i then v else h.K (h.H (parent (h.P i)))
      rw [if_neg n1, if_neg n2]
      have b1 := G.ord ho q hq hq0
      have b2 := G.ord ho (h.P i) h1 hp0
      rw [hpq] at b1
      omega
    · intro ho hp0
      have a2 := parent_lt hp0
      have n2 := inj (parent (h.P i)) (by omega) (by omega)
      rw [eK, eK]
      show (if i = i then v else h.K i) ≤ if h.H (parent (h.P i)) = i then v else h.K (h.H (parent (h.P i)))
      rw [if_pos rfl, if_neg n2]
      have b2 := G.ord ho (h.P i) h1 hp0
      rw [h2] at b2
      exact le_trans (hle ho) b2
  obtain ⟨h', r1, r2, r3, r4, r5, r6, r7, r8⟩ := percDownLoop_inv o i i (h.heap.length + 1) _ _ I (by
    show h.undef < _
    rw [G.shape.heap]; omega)
  rw [if_pos rfl] at r2
  refine ⟨h', ?_, ?_, r3, r4, r5, ?_⟩
  · rw [Heap.decreaseKey, rd_ok hi]
    show (do let pos ← rd h.pos i
             if pos = h.undef then pure { h with keys := h.keys.set i v } else ({ h with keys := h.keys.set i v } : Heap).percDown pos i : Res Heap) = _
    rw [rd_ok (by rw [G.shape.pos]; exact hi)]
    show (if h.P i = h.undef then _ else _ : Res Heap) = _
    rw [if_neg hn, Heap.percDown, rd_ok (by simpa using hi)]
    exact r1
  · unfold Good; rw [r3]; exact r2
  · intro j hj
    constructor
    · intro e
      by_contra h2
      exact r8 j h2 e
    · intro e
      have hji : j ≠ i := fun e2 => hn (e2 ▸ e)
      rw [← e]
      refine r7 j (by simpa using hj) hji ?_
      intro q hq hq2 e2
      have hq : q < h.size := hq
      have h3 := (G.items q hq).2.1
      have e2 : h.H q = j := e2
      rw [e2, e] at h3
      omega

theorem decreaseKey_absent {o : Prop} {h : Heap} (G : Good o h) {i v : Nat} (hi : i < h.keys.length) (hn : h.P i = h.undef) :
    ∃ h', h.decreaseKey i v = .ok h' ∧ Good o h' ∧ h'.keys = h.keys.set i v ∧ h'.undef = h.undef ∧ h'.size = h.size ∧
      (∀ j < h.keys.length, (h'.P j = h.undef ↔ h.P j = h.undef)) := by
  have ul := G.shape.size
  have eK : ∀ j, ({ h with keys := h.keys.set i v } : Heap).K j = if j = i then v else h.K j := fun j => getD_set _ _ _ _ hi
  have inj : ∀ q < h.size, h.H q ≠ i := by
    intro q hq e
    have := (G.items q hq).2.1
    rw [e] at this
    omega
  refine ⟨{ h with keys := h.keys.set i v }, ?_, ⟨⟨G.shape.heap, by simp [G.shape.pos], G.shape.size, by simpa using G.shape.kb, G.shape.ub⟩, ?_, ?_, ?_⟩, rfl, rfl, rfl, fun _ _ => Iff.rfl⟩
  · rw [Heap.decreaseKey, rd_ok hi]
    show (do let pos ← rd h.pos i
             if pos = h.undef then pure { h with keys := h.keys.set i v } else ({ h with keys := h.keys.set i v } : Heap).percDown pos i : Res Heap) = _
    rw [rd_ok (by rw [G.shape.pos]; exact hi)]
    show (if h.P i = h.undef then _ else _ : Res Heap) = _
    rw [if_pos hn]; rfl
  · intro q hq
    obtain ⟨a, b, c, d⟩ := G.items q hq
    refine ⟨by rw [List.length_set]; exact a, b, ?_, by rw [List.length_set]; exact d⟩
    rw [eK]
    show 0 < if h.H q = i then v else h.K (h.H q)
    rw [if_neg (inj q hq)]; exact c
  · intro j hj hjx
    exact G.back j (by simpa using hj) (by simpa using hjx)
  · intro ho q hq hq0
    have hq : q < h.size := hq
    have := parent_lt hq0
    simp only [eK]
    show (if h.H q = i then v else h.K (h.H q)) ≤ if h.H (parent q) = i then v else h.K (h.H (parent q))
    rw [if_neg (inj q hq), if_neg (inj (parent q) (by omega))]
    exact G.ord ho q hq hq0

theorem remove_absent {h : Heap} (S : Shape h) {i : Nat} (hi : i < h.keys.length) (hn : h.P i = h.undef) :
    h.remove i = .ok h := by
  rw [Heap.remove, rd_ok (by rw [S.pos]; exact hi)]
  show (if h.P i = h.undef then _ else _ : Res Heap) = _
  rw [if_pos hn]; rfl

/-- `remove` of an item of the heap; the order is kept if the last item of the heap does not have a larger key than the parent of the
removed item. -/
theorem remove_good {o : Prop} {h : Heap} (G : Good o h) {i : Nat} (hi : i < h.keys.length) (hn : h.P i ≠ h.undef)
    (hle : o → 0 < h.P i → h.P i < h.size - 1 → h.K (h.H (h.size - 1)) ≤ h.K (h.H (parent (h.P i)))) :
    ∃ h', h.remove i = .ok h' ∧ Good o h' ∧ h'.keys = h.keys ∧ h'.undef = h.undef ∧ h'.size = h.size - 1 ∧
      (∀ j < h.keys.length, (h'.P j = h.undef ↔ j = i ∨ h.P j = h.undef)) := by
  rcases G.back i hi (by omega) with h1 | ⟨h1, h2⟩
  · exact absurd h1 hn
  have ul := G.shape.size
  have ub := G.shape.ub
  have hs : (h.size + 2 ^ 64 - 1) % 2 ^ 64 = h.size - 1 := by omega
  have inj : ∀ q < h.size, q ≠ h.P i → h.H q ≠ i := by
    intro q hq hqi e
    have := (G.items q hq).2.1
    rw [e] at this
    exact hqi this.symm
  have hlast : h.size - 1 < h.heap.length := by rw [G.shape.heap]; omega
  have e0 : h.remove i = (do
      let h ← ({ h with size := h.size - 1 } : Heap).percDown (h.P i) (h.H (h.size - 1))
      let ps ← wr h.wPos h.pos i h.undef
      pure { h with pos := ps } : Res Heap) := by
    rw [Heap.remove, rd_ok (by rw [G.shape.pos]; exact hi)]
    show (if h.P i = h.undef then _ else _ : Res Heap) = _
    rw [if_neg hn, hs, rd_ok hlast]; rfl
  have fin : ∀ h' : Heap, ({ h with size := h.size - 1 } : Heap).percDown (h.P i) (h.H (h.size - 1)) = .ok h' →
      h'.undef = h.undef → h'.keys = h.keys → h'.pos.length = h.keys.length →
      h.remove i = .ok { h' with pos := h'.pos.set i h'.undef } := by
    intro h' r1 r2 r3 r4
    rw [e0, r1]
    show (do
      let ps ← wr h'.wPos h'.pos i h'.undef
      pure { h' with pos := ps } : Res Heap) = _
    have hu : h'.undef % 2 ^ h'.wPos = h'.undef := Nat.mod_eq_of_lt (by
      unfold Heap.wPos; exact lt_two_pow_bitsFor _ (by rw [r2]; exact ub))
    rw [wr, if_pos (by omega), hu]; rfl
  -- the last item
  obtain ⟨k1, k2, k3, k4⟩ := G.items (h.size - 1) (by omega)
  by_cases hl : h.P i = h.size - 1
  · -- the removed item is the last one
    have hk : h.H (h.size - 1) = i := by rw [← hl]; exact h2
    have S1 : Shape { h with size := h.size - 1 } := ⟨G.shape.heap, G.shape.pos, by show h.size - 1 ≤ h.undef; omega, G.shape.kb, G.shape.ub⟩
    have r1 : ({ h with size := h.size - 1 } : Heap).percDown (h.P i) (h.H (h.size - 1)) = .ok (({ h with size := h.size - 1 } : Heap).putv (h.size - 1) i) := by
      rw [Heap.percDown, hk, hl, rd_ok hi]
      show percDownLoop i (h.K i) (h.heap.length + 1) { h with size := h.size - 1 } (h.size - 1) = _
      rw [percDownLoop, Heap.childKey, if_neg (show ¬ lc (h.size - 1) < h.size - 1 by unfold lc; omega),
        Heap.childKey, if_neg (show ¬ rc (h.size - 1) < h.size - 1 by unfold rc; omega)]
      have hd : dir i (h.K i) 0 0 (h.size - 1) = .none := by
        have : 0 < h.K i := by rw [← hk]; exact k3
        unfold dir
        rw [if_neg (by omega), if_neg (by omega), if_neg (by omega), if_neg (by omega), if_neg (by omega), if_neg (by omega)]
      show (match dir i (h.K i) 0 0 (h.size - 1) with | .left => _ | .right => _ | .none => _ : Res Heap) = _
      rw [hd]
      exact put_ok S1 (show h.size - 1 < h.undef by omega) hi
    have S2 := putv_shape S1 (h.size - 1) i
    have r2 := fin _ r1 rfl rfl S2.pos
    obtain ⟨hh, q0, q1, q2, q3, q4, eP, eH⟩ : ∃ hh : Heap, h.remove i = .ok hh ∧ hh.keys = h.keys ∧ hh.undef = h.undef ∧ hh.size = h.size - 1 ∧
        Shape hh ∧ (∀ j, hh.P j = if j = i then h.undef else h.P j) ∧ (∀ q < h.size - 1, hh.H q = h.H q) := by
      refine ⟨_, r2, rfl, rfl, rfl, ⟨S2.heap, by simp [S2.pos], S2.size, S2.kb, S2.ub⟩, ?_, ?_⟩
      · intro j
        show (((h.pos.set i (h.size - 1)).set i h.undef)).getD j 0 = _
        rw [getD_set _ _ _ _ (by rw [List.length_set, G.shape.pos]; exact hi)]
        split
        · rfl
        · rename_i hj
          rw [getD_set _ _ _ _ (by rw [G.shape.pos]; exact hi), if_neg hj]; rfl
      · intro q hq
        show (h.heap.set (h.size - 1) i).getD q 0 = _
        rw [getD_set _ _ _ _ hlast, if_neg (by omega)]; rfl
    have eK : ∀ j, hh.K j = h.K j := by intro j; unfold Heap.K; rw [q1]
    refine ⟨hh, q0, ⟨q4, ?_, ?_, ?_⟩, q1, q2, q3, ?_⟩
    · intro q hq
      rw [q3] at hq
      obtain ⟨a, b, c, d⟩ := G.items q (by omega)
      rw [eH q hq, eP, if_neg (inj q (by omega) (by omega)), eK, q1]
      exact ⟨a, b, c, d⟩
    · intro j hj _
      rw [q1] at hj
      rw [eP, q2, q3]
      by_cases e : j = i
      · left; rw [if_pos e]
      · rw [if_neg e]
        rcases G.back j hj (by omega) with g1 | ⟨g1, g2⟩
        · left; exact g1
        · right
          have hne : h.P j ≠ h.size - 1 := by
            intro e2; rw [e2, hk] at g2; exact e g2.symm
          have hlt : h.P j < h.size - 1 := by omega
          rw [eH _ hlt]
          exact ⟨hlt, g2⟩
    · intro ho q hq hq0
      rw [q3] at hq
      have := parent_lt hq0
      rw [eH q hq, eH (parent q) (by omega), eK, eK]
      exact G.ord ho q (by omega) hq0
    · intro j hj
      rw [eP]
      by_cases e2 : j = i
      · simp [e2]
      · simp [e2]
  · -- another item fills the hole
    have hki : h.H (h.size - 1) ≠ i := inj _ (by omega) (Ne.symm hl)
    have I : Hole o { h with size := h.size - 1 } (h.H (h.size - 1)) i (h.P i) := by
      refine ⟨⟨G.shape.heap, G.shape.pos, by show h.size - 1 ≤ h.undef; omega, G.shape.kb, G.shape.ub⟩, by show h.P i < h.size - 1; omega, ?_, k1, k3, ?_, ?_, ?_, ?_⟩
      · intro q hq hqi
        have hq : q < h.size - 1 := hq
        obtain ⟨a, b, c, d⟩ := G.items q (by omega)
        refine ⟨a, b, c, ?_, inj q (by omega) hqi⟩
        intro e
        have e : h.H q = h.H (h.size - 1) := e
        rw [e, k2] at b
        omega
      · intro j hj hjk hji
        have hj : j < h.keys.length := hj
        rcases G.back j hj (by omega) with g1 | ⟨g1, g2⟩
        · exact Or.inl g1
        · right
          refine ⟨?_, ?_, g2⟩
          · show h.P j < h.size - 1
            have : h.P j ≠ h.size - 1 := fun e => hjk (by rw [← e, g2])
            omega
          · intro e
            have e : h.P j = h.P i := e
            rw [e, h2] at g2
            exact hji g2.symm
      · intro ho q hq hq0 _ _
        have hq : q < h.size - 1 := hq
        exact G.ord ho q (by omega) hq0
      · intro ho hp0 q hq hq0 hpq
        have hq : q < h.size - 1 := hq
        have b1 := G.ord ho q (by omega) hq0
        have b2 := G.ord ho (h.P i) h1 hp0
        rw [hpq] at b1
        exact le_trans b1 b2
      · intro ho hp0
        exact hle ho hp0 (by omega)
    obtain ⟨h', r1, r2, r3, r4, r5, r6, r7, r8⟩ := percDownLoop_inv o _ i (h.heap.length + 1) _ _ I (by
      show h.undef < _
      rw [G.shape.heap]; omega)
    rw [if_neg (Ne.symm hki)] at r2
    have r1' : ({ h with size := h.size - 1 } : Heap).percDown (h.P i) (h.H (h.size - 1)) = .ok h' := by
      rw [Heap.percDown, rd_ok k1]; exact r1
    have r3 : h'.keys = h.keys := r3
    have r4 : h'.undef = h.undef := r4
    have r5 : h'.size = h.size - 1 := r5
    have hpl : h'.pos.length = h.keys.length := by rw [r2.shape.pos, r3]
    have f := fin h' r1' r4 r3 hpl
    have eP : ∀ j, ({ h' with pos := h'.pos.set i h'.undef } : Heap).P j = if j = i then h.undef else h'.P j := by
      intro j
      show (h'.pos.set i h'.undef).getD j 0 = _
      rw [getD_set _ _ _ _ (by rw [hpl]; exact hi), r4]; rfl
    refine ⟨_, f, ⟨⟨r2.shape.heap, by simp [r2.shape.pos], r2.shape.size, r2.shape.kb, r2.shape.ub⟩, ?_, ?_, ?_⟩, r3, r4, r5, ?_⟩
    · intro q hq
      obtain ⟨a, b, c, d⟩ := r2.items q hq
      refine ⟨a, ?_, c, Nat.ne_of_lt a⟩
      refine (eP _).trans ?_
      have d' : ({ h' with pos := h'.pos.set i h'.undef } : Heap).H q ≠ i := d
      rw [if_neg d']; exact b
    · intro j hj _
      by_cases e : j = i
      · left; refine (eP j).trans ?_; rw [if_pos e]; exact r4.symm
      · have := eP j
        rw [if_neg e] at this
        rcases r2.back j hj e with g1 | ⟨g1, g2⟩
        · left; exact this.trans g1
        · right; exact ⟨lt_of_eq_of_lt this g1, (congrArg _ this).trans g2⟩
    · intro ho q hq hq0
      exact r2.ord ho q hq hq0
    · intro j hj
      have := eP j
      by_cases e : j = i
      · rw [if_pos e] at this
        exact ⟨fun _ => Or.inl e, fun _ => this⟩
      · rw [if_neg e] at this
        constructor
        · intro e2
          right
          by_contra h3
          exact r8 j h3 (this.symm.trans e2)
        · intro e2
          have e2 := e2.resolve_left e
          refine this.trans ?_
          rw [← e2]
          have hjk : j ≠ h.H (h.size - 1) := by
            intro e3; rw [← e3, e2] at k2; omega
          refine r7 j hj hjk ?_
          intro q hq hq2 e3
          have hq : q < h.size - 1 := hq
          have e3 : h.H q = j := e3
          have h3 := (G.items q (by omega)).2.1
          rw [e3, e2] at h3
          omega

/-- In an ordered heap the item at position 0 has the largest key. -/
theorem top_max {h : Heap} (G : Good True h) : ∀ q < h.size, h.K (h.H q) ≤ h.K (h.H 0) := by
  intro q
  induction q using Nat.strong_induction_on with
  | _ q ih =>
    intro hq
    by_cases h0 : q = 0
    · subst h0; exact le_refl _
    · have hp := parent_lt (Nat.pos_of_ne_zero h0)
      exact le_trans (G.ord trivial q hq (by omega)) (ih _ hp (by omega))

end AMH
end Tdc
