import Verif.Model.Huffman
import Verif.Lemmas.HuffmanOpt
import Mathlib.Data.Nat.Fib.Basic
import Mathlib.Data.List.Perm.Basic
import Mathlib.Tactic.ByContra

/-!
# The Huffman tree built by `gen_codelengths`: ghost trees for the parent array, Kraft's equality, depth bound
-/

namespace Tdc.Huff

/-- Ghost: a tree over node numbers. -/
inductive HT where
  | leaf (i : Nat)
  | node (i : Nat) (l r : HT)

namespace HT

def id : HT → Nat
  | leaf i => i
  | node i _ _ => i

mutual
/-- node numbers below the root -/
def proper : HT → List Nat
  | leaf _ => []
  | node _ l r => ids l ++ ids r
/-- all node numbers -/
def ids : HT → List Nat
  | leaf i => [i]
  | node i l r => i :: (ids l ++ ids r)
end

theorem ids_eq (t : HT) : t.ids = t.id :: t.proper := by cases t <;> simp [ids, proper, id]

theorem id_mem (t : HT) : t.id ∈ t.ids := by rw [ids_eq]; simp

def leaves : HT → List Nat
  | leaf i => [i]
  | node _ l r => leaves l ++ leaves r

def height : HT → Nat
  | leaf _ => 0
  | node _ l r => max (height l) (height r) + 1

def weight (w0 : Nat → Nat) (t : HT) : Nat := (t.leaves.map w0).sum

theorem weight_node (w0 : Nat → Nat) (i : Nat) (l r : HT) :
    (node i l r).weight w0 = l.weight w0 + r.weight w0 := by simp [weight, leaves]

/-- total length of the code below the root -/
def cost (w0 : Nat → Nat) : HT → Nat
  | leaf _ => 0
  | node _ l r => cost w0 l + cost w0 r + (l.weight w0 + r.weight w0)

end HT

/-- The array holds the parent pointers of the tree. -/
def links (A : List Nat) : HT → Prop
  | .leaf _ => True
  | .node i l r => A[l.id]? = some i ∧ A[r.id]? = some i ∧ i < l.id ∧ i < r.id ∧ links A l ∧ links A r

theorem links_congr {A A' : List Nat} : ∀ {t : HT}, (∀ i ∈ t.proper, A[i]? = A'[i]?) → links A t → links A' t
  | .leaf _, _, _ => trivial
  | .node i l r, h, ⟨h1, h2, h3, h4, h5, h6⟩ => by
    have hl : ∀ j ∈ l.ids, A[j]? = A'[j]? := fun j hj => h j (by simp [HT.proper, hj])
    have hr : ∀ j ∈ r.ids, A[j]? = A'[j]? := fun j hj => h j (by simp [HT.proper, hj])
    refine ⟨(hl _ l.id_mem).symm.trans h1, (hr _ r.id_mem).symm.trans h2, h3, h4, links_congr ?_ h5,
      links_congr ?_ h6⟩
    · intro j hj; exact hl j (by rw [HT.ids_eq]; simp [hj])
    · intro j hj; exact hr j (by rw [HT.ids_eq]; simp [hj])

/-- Invariant of the merging loop. -/
structure Inv (std : StdLib) (n : Nat) (w0 : Nat → Nat) (h : Nat) (A : List Nat) (F : List HT) : Prop where
  len : A.length = 2 * n
  hn : h < n
  heap : (A.take (h + 1)).Perm (F.map HT.id)
  wt : ∀ t ∈ F, A[t.id]? = some (t.weight w0)
  lk : ∀ t ∈ F, links A t
  ids : (F.flatMap HT.ids).Perm (List.range' (h + 1) (2 * n - 1 - h))
  leaves : (F.flatMap HT.leaves).Perm (List.range' n n)
  valid : std.valid (look A) (A.take (h + 1))
  tot : ((F.flatMap HT.leaves).map w0).sum < 2 ^ 64
  fib1 : ∀ t ∈ F, Nat.fib (t.height + 2) ≤ t.weight w0
  fib2 : ∀ t ∈ F, ∀ s ∈ F, Nat.fib (t.height + 1) ≤ s.weight w0
  /-- every code can be rearranged to one built from the trees so far, without making it longer -/
  opt : ∀ (ps : List (Nat × Nat)) (L : Nat), (ps.map Prod.fst).Perm ((List.range' n n).map w0) → KraftAt L (ps.map Prod.snd) →
    ∃ (qs : List (Nat × Nat)) (L' : Nat), (qs.map Prod.fst).Perm (F.map (HT.weight w0)) ∧ KraftAt L' (qs.map Prod.snd) ∧
      codeCost qs + (F.map (HT.cost w0)).sum ≤ codeCost ps

theorem look_eq {A : List Nat} {i x : Nat} (h : A[i]? = some x) : look A i = x := by
  simp [look, List.getD, h]

theorem look_congr {A B : List Nat} {i : Nat} (h : A[i]? = B[i]?) : look A i = look B i := by
  simp [look, List.getD, h]

theorem vget_ok {α : Type} {l : List α} {i : Nat} {x : α} (h : l[i]? = some x) : vget l i = .ok x := by simp [vget, h]

theorem vset_ok {l : List Nat} {i x : Nat} (h : i < l.length) : vset l i x = .ok (l.set i x) := if_pos h

theorem split_snoc {α : Type} {l : List α} {n : Nat} (h : l.length = n + 1) :
    ∃ b m, l = b ++ [m] ∧ b.length = n := by
  have hne : l ≠ [] := by rintro rfl; simp at h
  refine ⟨l.dropLast, l.getLast hne, (List.dropLast_append_getLast hne).symm, by simp [h]⟩

/-- Take a tree out of the forest by its number. -/
theorem pick {F : List HT} {base : List Nat} {m : Nat} (h : (base ++ [m]).Perm (F.map HT.id)) :
    ∃ t F1, t.id = m ∧ F.Perm (t :: F1) ∧ base.Perm (F1.map HT.id) := by
  have hm : m ∈ F.map HT.id := h.mem_iff.1 (by simp)
  obtain ⟨t, ht, hid⟩ := List.mem_map.1 hm
  obtain ⟨X, Y, rfl⟩ := List.append_of_mem ht
  refine ⟨t, X ++ Y, hid, List.perm_middle, ?_⟩
  have h2 : (m :: base).Perm (m :: (X ++ Y).map HT.id) := by
    refine ((List.perm_append_singleton m base).symm.trans h).trans ?_
    rw [← hid, ← List.map_cons]
    exact List.perm_middle.map _
  exact h2.cons_inv

theorem mergeStep_spec {std : StdLib} {n : Nat} {w0 : Nat → Nat} {g : Nat} {A : List Nat} {F : List HT}
    (h : Inv std n w0 (g + 1) A F) :
    ∃ A' F', mergeStep std g A = .ok A' ∧ Inv std n w0 g A' F' := by
  have hlen := h.len
  have hn := h.hn
  -- first pop
  have hHl : (A.take (g + 2)).length = g + 2 := by simp; omega
  have hP := std.pop_perm (look A) (A.take (g + 2))
  obtain ⟨base1, m1, hP1, hb1⟩ := split_snoc (hP.length_eq.trans hHl)
  obtain ⟨hmin1, hv1⟩ := std.pop_spec _ _ h.valid base1 m1 hP1
  rw [hP1] at hP
  obtain ⟨t1, F1, hid1, hF1, hbF1⟩ := pick (hP.trans h.heap)
  -- second pop
  generalize hD : A.drop (g + 2) = D at *
  have hA1 : onPrefix std.pop (g + 2) A = base1 ++ m1 :: D := by
    rw [onPrefix, hP1, hD]; simp
  have hidsL : ∀ i ∈ F.flatMap HT.ids, g + 2 ≤ i ∧ i < 2 * n := by
    intro i hi
    have := h.ids.mem_iff.1 hi
    rw [List.mem_range'_1] at this
    omega
  have hDget : ∀ (pre : List Nat) (i : Nat), pre.length = g + 2 → g + 2 ≤ i → (pre ++ D)[i]? = A[i]? := by
    intro pre i hp hi
    rw [List.getElem?_append_right (by omega), ← hD, List.getElem?_drop, hp]
    congr 1; omega
  have hA1get : ∀ i, g + 2 ≤ i → (base1 ++ m1 :: D)[i]? = A[i]? := by
    intro i hi
    have : base1 ++ m1 :: D = (base1 ++ [m1]) ++ D := by simp
    rw [this, hDget _ i (by simp [hb1]) hi]
  have hF1sub : ∀ t ∈ F1, t ∈ F := fun t ht => hF1.mem_iff.2 (by simp [ht])
  have ht1 : t1 ∈ F := hF1.mem_iff.2 (by simp)
  have hge : ∀ t ∈ F, ∀ i ∈ t.ids, g + 2 ≤ i ∧ i < 2 * n := by
    intro t ht i hi
    exact hidsL i (List.mem_flatMap.2 ⟨t, ht, hi⟩)
  have hv1' : std.valid (look (base1 ++ m1 :: D)) base1 := by
    refine std.valid_congr _ _ _ ?_ hv1
    intro x hx
    obtain ⟨t, ht, rfl⟩ := List.mem_map.1 (hbF1.mem_iff.1 hx)
    exact look_congr (hA1get _ (hge t (hF1sub t ht) _ t.id_mem).1).symm
  have hQ := std.pop_perm (look (base1 ++ m1 :: D)) base1
  obtain ⟨base2, m2, hQ1, hb2⟩ := split_snoc (hQ.length_eq.trans hb1)
  obtain ⟨hmin2, hv2⟩ := std.pop_spec _ _ hv1' base2 m2 hQ1
  rw [hQ1] at hQ
  obtain ⟨t2, F2, hid2, hF2, hbF2⟩ := pick (hQ.trans hbF1)
  have ht2 : t2 ∈ F := hF1sub _ (hF2.mem_iff.2 (by simp))
  have hF2sub : ∀ t ∈ F2, t ∈ F := fun t ht => hF1sub _ (hF2.mem_iff.2 (by simp [ht]))
  have hFF : F.Perm (t1 :: t2 :: F2) := hF1.trans (hF2.cons t1)
  have hA2 : onPrefix std.pop (g + 1) (base1 ++ m1 :: D) = base2 ++ m2 :: m1 :: D := by
    rw [onPrefix, List.take_append_of_le_length (by omega), List.take_of_length_le (by omega), hQ1,
      List.drop_append_of_le_length (by omega), List.drop_of_length_le (by omega)]
    simp
  have hA2get : ∀ i, g + 2 ≤ i → (base2 ++ m2 :: m1 :: D)[i]? = A[i]? := by
    intro i hi
    have : base2 ++ m2 :: m1 :: D = (base2 ++ [m2, m1]) ++ D := by simp
    rw [this, hDget _ i (by simp [hb2]) hi]
  have hm1 := hge t1 ht1 _ t1.id_mem
  have hm2 := hge t2 ht2 _ t2.id_mem
  rw [hid1] at hm1
  rw [hid2] at hm2
  have hw1 := h.wt t1 ht1
  have hw2 := h.wt t2 ht2
  rw [hid1] at hw1
  rw [hid2] at hw2
  -- nodup facts
  have hperm : (F.flatMap HT.ids).Perm (t1.ids ++ (t2.ids ++ F2.flatMap HT.ids)) := by
    have := List.Perm.flatMap_right HT.ids hFF
    simpa using this
  have hnd : (t1.ids ++ (t2.ids ++ F2.flatMap HT.ids)).Nodup :=
    hperm.nodup_iff.1 (h.ids.nodup_iff.2 List.nodup_range')
  have hm12 : m1 ≠ m2 := by
    rw [← hid1, ← hid2]
    exact (List.nodup_append.1 hnd).2.2 _ t1.id_mem _ (by simp [t2.id_mem])
  have hwsum : t1.weight w0 + t2.weight w0 < 2 ^ 64 := by
    have h1 := (List.Perm.flatMap_right HT.leaves hFF).map w0 |>.sum_eq
    have h2 := h.tot
    rw [h1] at h2
    simp only [List.flatMap_cons, List.map_append, List.sum_append] at h2
    simp only [HT.weight]
    omega
  have hDl : D.length = 2 * n - (g + 2) := by rw [← hD, List.length_drop, hlen]
  -- the final array
  obtain ⟨D', hD'⟩ : ∃ D', D' = (D.set (m2 - (g + 2)) (g + 1)).set (m1 - (g + 2)) (g + 1) := ⟨_, rfl⟩
  have hset : ∀ (l : List Nat) (i x : Nat), g + 2 ≤ i →
      (base2 ++ (g + 1) :: (t1.weight w0 + t2.weight w0) :: l).set i x
        = base2 ++ (g + 1) :: (t1.weight w0 + t2.weight w0) :: l.set (i - (g + 2)) x := by
    intro l i x hi
    rw [List.set_append_right _ _ (by omega), hb2]
    obtain ⟨j, rfl⟩ : ∃ j, i = g + 2 + j := ⟨i - (g + 2), by omega⟩
    rw [show g + 2 + j - g = j + 1 + 1 by omega, show g + 2 + j - (g + 2) = j by omega]
    rfl
  have hstep : mergeStep std g A
      = .ok (std.push (look (base2 ++ (g + 1) :: (t1.weight w0 + t2.weight w0) :: D')) (base2 ++ [g + 1])
          ++ (t1.weight w0 + t2.weight w0) :: D') := by
    unfold mergeStep
    simp only [hA1]
    rw [vget_ok (x := m1) (by rw [List.getElem?_append_right (by omega), hb1]; simp)]
    simp only [hA2]
    rw [vget_ok (x := m2) (by rw [List.getElem?_append_right (by omega), hb2]; simp)]
    simp only
    rw [vget_ok ((hA2get m1 hm1.1).trans hw1), vget_ok ((hA2get m2 hm2.1).trans hw2)]
    simp only [Nat.mod_eq_of_lt hwsum]
    have e1 : (base2 ++ m2 :: m1 :: D).set (g + 1) (t1.weight w0 + t2.weight w0)
        = base2 ++ m2 :: (t1.weight w0 + t2.weight w0) :: D := by
      rw [List.set_append_right _ _ (by omega), hb2, show g + 1 - g = 1 by omega]; rfl
    have e2 : (base2 ++ m2 :: (t1.weight w0 + t2.weight w0) :: D).set g (g + 1)
        = base2 ++ (g + 1) :: (t1.weight w0 + t2.weight w0) :: D := by
      rw [List.set_append_right _ _ (by omega), hb2, show g - g = 0 by omega]; rfl
    rw [vset_ok (by simp; omega), e1]
    simp only
    rw [vset_ok (by simp; omega), e2]
    simp only
    rw [vset_ok (by simp; omega), hset _ _ _ hm2.1]
    simp only
    rw [vset_ok (by simp; omega), hset _ _ _ hm1.1, ← hD']
    simp only [onPrefix]
    congr 1
    have e3 : base2 ++ (g + 1) :: (t1.weight w0 + t2.weight w0) :: D'
        = (base2 ++ [g + 1]) ++ (t1.weight w0 + t2.weight w0) :: D' := by simp
    rw [e3, List.take_append_of_le_length (by simp [hb2]), List.take_of_length_le (by simp [hb2]),
      List.drop_append_of_le_length (by simp [hb2]), List.drop_of_length_le (by simp [hb2])]
    simp
  refine ⟨_, .node (g + 1) t1 t2 :: F2, hstep, ?_⟩
  obtain ⟨w, hw⟩ : ∃ w, w = t1.weight w0 + t2.weight w0 := ⟨_, rfl⟩
  rw [← hw]
  obtain ⟨N, hN⟩ : ∃ N, N = std.push (look (base2 ++ (g + 1) :: w :: D')) (base2 ++ [g + 1]) := ⟨_, rfl⟩
  rw [← hN]
  have hNp : N.Perm (base2 ++ [g + 1]) := by rw [hN]; exact std.push_perm _ _
  have hNl : N.length = g + 1 := by rw [hNp.length_eq]; simp [hb2]
  have hD'l : D'.length = 2 * n - (g + 2) := by rw [hD']; simp [hDl]
  have hget : ∀ i, g + 2 ≤ i → i ≠ m1 → i ≠ m2 → (N ++ w :: D')[i]? = A[i]? := by
    intro i hi h1 h2
    rw [List.getElem?_append_right (by omega), hNl]
    obtain ⟨j, rfl⟩ : ∃ j, i = g + 2 + j := ⟨i - (g + 2), by omega⟩
    rw [show g + 2 + j - (g + 1) = j + 1 by omega, List.getElem?_cons_succ, hD',
      List.getElem?_set_ne (by omega), List.getElem?_set_ne (by omega), ← hD, List.getElem?_drop]
  have hgm : ∀ i, (i = m1 ∨ i = m2) → (N ++ w :: D')[i]? = some (g + 1) := by
    intro i hi
    have hi2 : g + 2 ≤ i ∧ i < 2 * n := by rcases hi with rfl | rfl <;> assumption
    rw [List.getElem?_append_right (by omega), hNl]
    obtain ⟨j, rfl⟩ : ∃ j, i = g + 2 + j := ⟨i - (g + 2), by omega⟩
    rw [show g + 2 + j - (g + 1) = j + 1 by omega, List.getElem?_cons_succ, hD', List.getElem?_set,
      List.getElem?_set]
    have hjl : j < D.length := by omega
    rcases hi with rfl | rfl
    · simp [hjl]
    · have : m1 - (g + 2) ≠ j := by omega
      simp [hjl, this]
  have hgw : (N ++ w :: D')[g + 1]? = some w := by
    rw [List.getElem?_append_right (by omega), hNl]; simp
  have htake : (N ++ w :: D').take (g + 1) = N := by
    rw [List.take_append_of_le_length (by omega), List.take_of_length_le (by omega)]
  -- links of the old trees
  have hlk : ∀ t ∈ F, (∀ i ∈ t.proper, i ≠ m1 ∧ i ≠ m2) → links (N ++ w :: D') t := by
    intro t ht hne
    refine links_congr ?_ (h.lk t ht)
    intro i hi
    have := hne i hi
    exact (hget i (hge t ht i (by rw [HT.ids_eq]; simp [hi])).1 this.1 this.2).symm
  have hnd' := hnd
  rw [List.nodup_append, List.nodup_append] at hnd'
  obtain ⟨hn1, ⟨hn2, hn3, hd2⟩, hd1⟩ := hnd'
  have hp1 : ∀ i ∈ t1.proper, i ≠ m1 ∧ i ≠ m2 := by
    intro i hi
    constructor
    · rintro rfl
      rw [HT.ids_eq, hid1, List.nodup_cons] at hn1
      exact hn1.1 hi
    · rw [← hid2]
      exact hd1 i (by rw [HT.ids_eq]; simp [hi]) _ (by simp [t2.id_mem])
  have hp2 : ∀ i ∈ t2.proper, i ≠ m1 ∧ i ≠ m2 := by
    intro i hi
    constructor
    · rw [← hid1]
      exact (hd1 _ t1.id_mem i (by rw [t2.ids_eq]; simp [hi])).symm
    · rintro rfl
      rw [HT.ids_eq, hid2, List.nodup_cons] at hn2
      exact hn2.1 hi
  have hpF : ∀ t ∈ F2, ∀ i ∈ t.ids, i ≠ m1 ∧ i ≠ m2 := by
    intro t ht i hi
    have hmem : i ∈ F2.flatMap HT.ids := List.mem_flatMap.2 ⟨t, ht, hi⟩
    constructor
    · rw [← hid1]
      exact (hd1 _ t1.id_mem i (by simp only [List.mem_append]; exact .inr hmem)).symm
    · rw [← hid2]
      exact (hd2 _ t2.id_mem i hmem).symm
  have hlook1 : ∀ s ∈ F, t1.weight w0 ≤ s.weight w0 := by
    intro s hs
    have := hmin1 s.id (h.heap.mem_iff.2 (List.mem_map.2 ⟨s, hs, rfl⟩))
    rwa [look_eq hw1, look_eq (h.wt s hs)] at this
  have hlook2 : ∀ s ∈ F2, t2.weight w0 ≤ s.weight w0 := by
    intro s hs
    have hs1 : s ∈ F1 := hF2.mem_iff.2 (by simp [hs])
    have := hmin2 s.id (hbF1.mem_iff.2 (List.mem_map.2 ⟨s, hs1, rfl⟩))
    have hsF := hF2sub s hs
    rwa [look_eq ((hA1get m2 hm2.1).trans hw2),
      look_eq ((hA1get _ (hge s hsF _ s.id_mem).1).trans (h.wt s hsF))] at this
  refine ⟨by simp [hNl, hD'l]; omega, by omega, ?_, ?_, ?_, ?_, ?_, ?_, ?_, ?_, ?_, ?_⟩
  · rw [htake, List.map_cons]
    exact hNp.trans ((List.perm_append_singleton _ _).trans (hbF2.cons _))
  · intro t ht
    rcases List.mem_cons.1 ht with rfl | ht
    · rw [HT.weight_node, ← hw]; exact hgw
    · have hne := hpF t ht _ t.id_mem
      rw [hget _ (hge t (hF2sub t ht) _ t.id_mem).1 hne.1 hne.2]
      exact h.wt t (hF2sub t ht)
  · intro t ht
    rcases List.mem_cons.1 ht with rfl | ht
    · refine ⟨hgm _ (.inl hid1), hgm _ (.inr hid2), by omega, by omega, hlk t1 ht1 hp1, hlk t2 ht2 hp2⟩
    · exact hlk t (hF2sub t ht) fun i hi => hpF t ht i (by rw [HT.ids_eq]; simp [hi])
  · rw [show 2 * n - 1 - g = (2 * n - 1 - (g + 1)) + 1 by omega, List.range'_succ]
    simp only [List.flatMap_cons, HT.ids, List.cons_append]
    refine List.Perm.cons _ ?_
    rw [List.append_assoc]
    exact hperm.symm.trans h.ids
  · have := (List.Perm.flatMap_right HT.leaves hFF).symm.trans h.leaves
    simpa [HT.leaves] using this
  · rw [htake, hN]
    have hvb : std.valid (look (base2 ++ (g + 1) :: w :: D')) base2 := by
      refine std.valid_congr _ _ _ ?_ hv2
      intro x hx
      obtain ⟨t, ht, rfl⟩ := List.mem_map.1 (hbF2.mem_iff.1 hx)
      have hne := hpF t ht _ t.id_mem
      have hgi := (hge t (hF2sub t ht) _ t.id_mem)
      apply look_congr
      rw [hA1get _ hgi.1, List.getElem?_append_right (by omega), hb2]
      obtain ⟨j, hj⟩ : ∃ j, t.id = g + 2 + j := ⟨t.id - (g + 2), by omega⟩
      rw [hj] at hne ⊢
      rw [show g + 2 + j - g = j + 1 + 1 by omega, List.getElem?_cons_succ, List.getElem?_cons_succ, hD',
        List.getElem?_set_ne (by omega), List.getElem?_set_ne (by omega), ← hD, List.getElem?_drop]
    refine std.valid_congr _ _ _ ?_ (std.push_valid _ base2 (g + 1) hvb)
    intro x hx
    rw [← hN] at hx
    have hx' : x ∈ base2 ∨ x = g + 1 := by simpa using hNp.mem_iff.1 hx
    have hxg : g + 1 ≤ x := by
      rcases hx' with hx' | rfl
      · obtain ⟨t, ht, rfl⟩ := List.mem_map.1 (hbF2.mem_iff.1 hx')
        have := (hge t (hF2sub t ht) _ t.id_mem).1
        omega
      · omega
    apply look_congr
    rw [← hN, show base2 ++ (g + 1) :: w :: D' = (base2 ++ [g + 1]) ++ w :: D' by simp,
      List.getElem?_append_right (by simp [hb2]; omega), List.getElem?_append_right (by omega), hNl]
    simp [hb2]
  · have := ((List.Perm.flatMap_right HT.leaves hFF).map w0).sum_eq
    have h2 := h.tot
    rw [this] at h2
    simpa [HT.leaves] using h2
  · intro t ht
    rcases List.mem_cons.1 ht with rfl | ht
    · rw [HT.weight_node, HT.height]
      have a1 := h.fib1 t1 ht1
      have a2 := h.fib1 t2 ht2
      have b1 := h.fib2 t1 ht1 t2 ht2
      have b2 := h.fib2 t2 ht2 t1 ht1
      have hf : Nat.fib (max t1.height t2.height + 1 + 2)
          = Nat.fib (max t1.height t2.height + 1) + Nat.fib (max t1.height t2.height + 2) := by
        rw [show max t1.height t2.height + 1 + 2 = (max t1.height t2.height + 1) + 2 by omega, Nat.fib_add_two]
      rw [hf]
      rcases Nat.le_total t1.height t2.height with hle | hle
      · rw [Nat.max_eq_right hle]; omega
      · rw [Nat.max_eq_left hle]; omega
    · exact h.fib1 t (hF2sub t ht)
  · intro t ht s hs
    have hsw : ∀ s ∈ HT.node (g + 1) t1 t2 :: F2, t1.weight w0 ≤ s.weight w0 ∧ t2.weight w0 ≤ s.weight w0 ∧
        ∀ t ∈ F, Nat.fib (t.height + 1) ≤ s.weight w0 := by
      intro s hs
      rcases List.mem_cons.1 hs with rfl | hs
      · rw [HT.weight_node]
        refine ⟨by omega, by omega, fun t ht => ?_⟩
        have := h.fib2 t ht t1 ht1
        omega
      · exact ⟨hlook1 s (hF2sub s hs), hlook2 s hs, fun t ht => h.fib2 t ht s (hF2sub s hs)⟩
    obtain ⟨c1, c2, c3⟩ := hsw s hs
    rcases List.mem_cons.1 ht with rfl | ht
    · rw [HT.height]
      have a1 := h.fib1 t1 ht1
      have a2 := h.fib1 t2 ht2
      rcases Nat.le_total t1.height t2.height with hle | hle
      · rw [Nat.max_eq_right hle]
        show Nat.fib (t2.height + 2) ≤ _
        omega
      · rw [Nat.max_eq_left hle]
        show Nat.fib (t1.height + 2) ≤ _
        omega
    · exact c3 t (hF2sub t ht)
  · intro ps L hp hk
    obtain ⟨qs, L', h1, h2, h3⟩ := h.opt ps L hp hk
    have hW := h1.trans (hFF.map (HT.weight w0))
    have hC := (hFF.map (HT.cost w0)).sum_eq
    simp only [List.map_cons] at hW
    obtain ⟨qs', L'', g1, g2, g3⟩ := merge_opt hW h2 (hlook1 t2 ht2) (by
      intro w hw'
      obtain ⟨s, hs, rfl⟩ := List.mem_map.1 hw'
      exact hlook2 s hs)
    refine ⟨qs', L'', ?_, g2, ?_⟩
    · simpa [HT.weight_node] using g1
    · simp only [List.map_cons, List.sum_cons, HT.cost] at hC ⊢
      omega

end Tdc.Huff
