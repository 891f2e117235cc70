import Verif.Lemmas.HuffmanTree
import Mathlib.Tactic.Ring

/-!
# Code lengths: the result of `gen_codelengths` satisfies Kraft's equality
-/

namespace Tdc.Huff

namespace HT

/-- node numbers with their depth -/
def depths : Nat → HT → List (Nat × Nat)
  | d, leaf i => [(i, d)]
  | d, node i l r => (i, d) :: (depths (d + 1) l ++ depths (d + 1) r)

/-- leaf numbers with their depth -/
def leafDepths : Nat → HT → List (Nat × Nat)
  | d, leaf i => [(i, d)]
  | d, node _ l r => leafDepths (d + 1) l ++ leafDepths (d + 1) r

theorem leafDepths_sub {p : Nat × Nat} : ∀ {d : Nat} {t : HT}, p ∈ leafDepths d t → p ∈ depths d t
  | d, leaf i, h => h
  | d, node i l r, h => by
    simp only [leafDepths, List.mem_append] at h
    simp only [depths, List.mem_cons, List.mem_append]
    rcases h with h | h
    · exact .inr (.inl (leafDepths_sub h))
    · exact .inr (.inr (leafDepths_sub h))

theorem leafDepths_fst : ∀ (d : Nat) (t : HT), (leafDepths d t).map Prod.fst = t.leaves
  | _, leaf _ => rfl
  | d, node i l r => by simp [leafDepths, leaves, leafDepths_fst]

theorem root_mem (d : Nat) (t : HT) : (t.id, d) ∈ depths d t := by cases t <;> simp [depths, id]

theorem mem_ids_of_depths {p : Nat × Nat} : ∀ {d : Nat} {t : HT}, p ∈ depths d t → p.1 ∈ t.ids
  | d, leaf i, h => by simp [depths] at h; simp [ids, h]
  | d, node i l r, h => by
    simp only [depths, List.mem_cons, List.mem_append] at h
    simp only [ids, List.mem_cons, List.mem_append]
    rcases h with rfl | h | h
    · exact .inl rfl
    · exact .inr (.inl (mem_ids_of_depths h))
    · exact .inr (.inr (mem_ids_of_depths h))

theorem depth_bounds {p : Nat × Nat} : ∀ {d : Nat} {t : HT}, p ∈ leafDepths d t → d ≤ p.2 ∧ p.2 ≤ d + t.height
  | d, leaf i, h => by simp [leafDepths] at h; subst h; simp
  | d, node i l r, h => by
    simp only [leafDepths, List.mem_append] at h
    have hl : l.height ≤ max l.height r.height := Nat.le_max_left _ _
    have hr : r.height ≤ max l.height r.height := Nat.le_max_right _ _
    rcases h with h | h
    · have := depth_bounds h
      simp only [height]; omega
    · have := depth_bounds h
      simp only [height]; omega

theorem depth_pos {p : Nat × Nat} {d i : Nat} {l r : HT} (h : p ∈ leafDepths d (node i l r)) : d < p.2 := by
  simp only [leafDepths, List.mem_append] at h
  rcases h with h | h
  · have := depth_bounds h; omega
  · have := depth_bounds h; omega

theorem height_attained : ∀ (d : Nat) (t : HT), ∃ p ∈ leafDepths d t, p.2 = d + t.height
  | d, leaf i => ⟨(i, d), by simp [leafDepths], by simp [height]⟩
  | d, node i l r => by
    rcases Nat.le_total l.height r.height with h | h
    · obtain ⟨p, hp, he⟩ := height_attained (d + 1) r
      exact ⟨p, by simp [leafDepths, hp], by rw [he, height, Nat.max_eq_right h]; omega⟩
    · obtain ⟨p, hp, he⟩ := height_attained (d + 1) l
      exact ⟨p, by simp [leafDepths, hp], by rw [he, height, Nat.max_eq_left h]; omega⟩

/-- Kraft's equality for trees. -/
theorem kraft (L : Nat) : ∀ (d : Nat) (t : HT), d + t.height ≤ L →
    ((leafDepths d t).map fun p => 2 ^ (L - p.2)).sum = 2 ^ (L - d)
  | d, leaf i, _ => by simp [leafDepths]
  | d, node i l r, h => by
    simp only [height] at h
    have hl : l.height ≤ max l.height r.height := Nat.le_max_left _ _
    have hr : r.height ≤ max l.height r.height := Nat.le_max_right _ _
    simp only [leafDepths, List.map_append, List.sum_append]
    rw [kraft L (d + 1) l (by omega), kraft L (d + 1) r (by omega),
      show L - d = (L - (d + 1)) + 1 by omega, Nat.pow_succ]
    omega

/-- every node but the root has its parent among the nodes, one level up -/
theorem parent_of {A : List Nat} {j e : Nat} : ∀ {d : Nat} {t : HT}, links A t → (j, e) ∈ depths d t →
    (j = t.id ∧ e = d) ∨ ∃ p e', (p, e') ∈ depths d t ∧ p < j ∧ A[j]? = some p ∧ e = e' + 1
  | d, leaf i, _, h => by
    simp [depths] at h
    exact .inl h
  | d, node i l r, ⟨h1, h2, h3, h4, h5, h6⟩, h => by
    simp only [depths, List.mem_cons, List.mem_append] at h
    rcases h with h | h | h
    · simp only [Prod.mk.injEq] at h
      exact .inl h
    · right
      rcases parent_of h5 h with ⟨rfl, rfl⟩ | ⟨p, e', hp, h7⟩
      · exact ⟨i, d, by simp [depths], h3, h1, rfl⟩
      · exact ⟨p, e', by simp [depths, hp], h7⟩
    · right
      rcases parent_of h6 h with ⟨rfl, rfl⟩ | ⟨p, e', hp, h7⟩
      · exact ⟨i, d, by simp [depths], h4, h2, rfl⟩
      · exact ⟨p, e', by simp [depths, hp], h7⟩

end HT

theorem mergeLoop_spec {std : StdLib} {n : Nat} {w0 : Nat → Nat} : ∀ {h : Nat} {A : List Nat} {F : List HT},
    Inv std n w0 h A F → ∃ A' T, mergeLoop std h A = .ok A' ∧ Inv std n w0 0 A' [T]
  | 0, A, F, h => by
    have hl := h.heap.length_eq
    have hA : A.length = 2 * n := h.len
    have hn : 0 < n := h.hn
    have : F.length = 1 := by
      simp only [List.length_take, List.length_map] at hl
      omega
    obtain ⟨T, rfl⟩ := List.length_eq_one_iff.1 this
    exact ⟨A, T, rfl, h⟩
  | g + 1, A, F, h => by
    obtain ⟨A1, F1, h1, h2⟩ := mergeStep_spec h
    obtain ⟨A', T, h3, h4⟩ := mergeLoop_spec h2
    exact ⟨A', T, by rw [mergeLoop, h1]; exact h3, h4⟩

theorem depthLoop_spec {n : Nat} {A0 : List Nat} {T : HT} (hlk : links A0 T) (hid : T.id = 1)
    (hids : ∀ j, 1 ≤ j → j < 2 * n → ∃ e, (j, e) ∈ T.depths 0) :
    ∀ (k i : Nat) (A : List Nat), i + k = 2 * n → 2 ≤ i → A.length = 2 * n →
      (∀ j e, (j, e) ∈ T.depths 0 → j < i → A[j]? = some e) → (∀ j, i ≤ j → A[j]? = A0[j]?) →
      ∃ A', depthLoop k i A = .ok A' ∧ A'.length = 2 * n ∧ ∀ j e, (j, e) ∈ T.depths 0 → j < 2 * n → A'[j]? = some e
  | 0, i, A, hk, _, hl, h1, _ => ⟨A, rfl, hl, fun j e hje hj => h1 j e hje (by omega)⟩
  | k + 1, i, A, hk, hi, hl, h1, h2 => by
    obtain ⟨e, he⟩ := hids i (by omega) (by omega)
    rcases HT.parent_of hlk he with ⟨h, _⟩ | ⟨p, e', hp, hlt, hA, rfl⟩
    · omega
    · have hv : A[i]? = some p := (h2 i (Nat.le_refl _)).trans hA
      have hpv := h1 p e' hp hlt
      have hstep : depthLoop (k + 1) i A = depthLoop k (i + 1) (A.set i (e' + 1)) := by
        rw [depthLoop, vget_ok hv]
        simp only
        rw [vget_ok hpv]
        simp only
        rw [vset_ok (by omega)]
      rw [hstep]
      refine depthLoop_spec hlk hid hids k (i + 1) _ (by omega) (by omega) (by simpa using hl) ?_ ?_
      · intro j f hjf hj
        by_cases hji : j = i
        · subst hji
          rw [List.getElem?_set_self (by omega)]
          rcases HT.parent_of hlk hjf with ⟨h, _⟩ | ⟨p', f', hp', hlt', hA', rfl⟩
          · omega
          · rw [hA] at hA'
            simp only [Option.some.injEq] at hA'
            subst hA'
            have := h1 p f' hp' hlt'
            rw [hpv] at this
            simpa using this
        · rw [List.getElem?_set_ne (by omega)]
          exact h1 j f hjf (by omega)
      · intro j hj
        rw [List.getElem?_set_ne (by omega)]
        exact h2 j (by omega)

theorem HT.depths_of_ids : ∀ {d j : Nat} {t : HT}, j ∈ t.ids → ∃ e, (j, e) ∈ t.depths d
  | d, j, .leaf i, h => by simp [ids] at h; exact ⟨d, by simp [depths, h]⟩
  | d, j, .node i l r, h => by
    simp only [ids, List.mem_cons, List.mem_append] at h
    rcases h with rfl | h | h
    · exact ⟨d, by simp [depths]⟩
    · obtain ⟨e, he⟩ := depths_of_ids (d := d + 1) h
      exact ⟨e, by simp [depths, he]⟩
    · obtain ⟨e, he⟩ := depths_of_ids (d := d + 1) h
      exact ⟨e, by simp [depths, he]⟩

theorem fib_big : 2 ^ 64 ≤ Nat.fib 94 := by decide

/-- The loop invariant holds when the loop starts. -/
theorem inv_init (std : StdLib) (freqs : List Nat) (h1 : 1 ≤ freqs.length) (hpos : ∀ f ∈ freqs, 0 < f)
    (hsum : freqs.sum < 2 ^ 64) :
    Inv std freqs.length (fun i => freqs.getD (i - freqs.length) 0) (freqs.length - 1)
      (onPrefix std.make freqs.length ((List.range freqs.length).map (freqs.length + ·) ++ freqs))
      ((List.range freqs.length).map fun i => HT.leaf (freqs.length + i)) := by
  obtain ⟨n, hn⟩ : ∃ n, n = freqs.length := ⟨_, rfl⟩
  rw [← hn]
  rw [← hn] at h1
  generalize hH : (List.range n).map (n + ·) = H
  have hHl : H.length = n := by rw [← hH]; simp
  have hA : onPrefix std.make n (H ++ freqs) = std.make (look (H ++ freqs)) H ++ freqs := by
    rw [onPrefix, List.take_append_of_le_length (by omega), List.take_of_length_le (by omega),
      List.drop_append_of_le_length (by omega), List.drop_of_length_le (by omega)]
    simp
  obtain ⟨M, hM⟩ : ∃ M, M = std.make (look (H ++ freqs)) H := ⟨_, rfl⟩
  rw [hA, ← hM]
  have hMp : M.Perm H := by rw [hM]; exact std.make_perm _ _
  have hMl : M.length = n := hMp.length_eq.trans hHl
  have htake : (M ++ freqs).take (n - 1 + 1) = M := by
    rw [List.take_append_of_le_length (by omega), List.take_of_length_le (by omega)]
  have hHr : H = List.range' n n := by
    rw [← hH, List.range_eq_range', List.map_add_range']; simp
  have hw : ∀ i, i < n → 0 < freqs.getD (n + i - n) 0 := by
    intro i hi
    rw [show n + i - n = i by omega]
    have : freqs[i]? = some freqs[i] := List.getElem?_eq_getElem (by omega)
    rw [List.getD, this]
    exact hpos _ (List.getElem_mem _)
  have hleaves : ((List.range n).map fun i => HT.leaf (n + i)).flatMap HT.leaves = H := by
    rw [← hH]
    induction List.range n with
    | nil => rfl
    | cons a l ih => simpa [HT.leaves] using ih
  have hids : ((List.range n).map fun i => HT.leaf (n + i)).flatMap HT.ids = H := by
    rw [← hH]
    induction List.range n with
    | nil => rfl
    | cons a l ih => simpa [HT.ids] using ih
  have hmem : ∀ t ∈ (List.range n).map (fun i => HT.leaf (n + i)), ∃ i, i < n ∧ t = HT.leaf (n + i) := by
    intro t ht
    obtain ⟨i, hi, rfl⟩ := List.mem_map.1 ht
    exact ⟨i, List.mem_range.1 hi, rfl⟩
  refine ⟨by simp [hMl, ← hn]; omega, by omega, ?_, ?_, ?_, ?_, ?_, ?_, ?_, ?_, ?_, ?_⟩
  · rw [htake, List.map_map]
    refine hMp.trans (List.Perm.of_eq ?_)
    rw [← hH]; rfl
  · intro t ht
    obtain ⟨i, hi, rfl⟩ := hmem t ht
    simp only [HT.id, HT.weight, HT.leaves, List.map_cons, List.map_nil, List.sum_cons, List.sum_nil, Nat.add_zero]
    rw [List.getElem?_append_right (by omega), hMl, show n + i - n = i by omega, List.getD,
      List.getElem?_eq_getElem (by omega)]
    rfl
  · intro t ht
    obtain ⟨i, hi, rfl⟩ := hmem t ht
    trivial
  · rw [hids, hHr, show n - 1 + 1 = n by omega, show 2 * n - 1 - (n - 1) = n by omega]
  · rw [hleaves, hHr]
  · rw [htake]
    refine std.valid_congr (look (H ++ freqs)) _ _ ?_ (hM ▸ std.make_valid _ _)
    intro x hx
    have := hMp.mem_iff.1 hx
    rw [hHr, List.mem_range'_1] at this
    apply look_congr
    rw [List.getElem?_append_right (by omega), List.getElem?_append_right (by omega), hMl, hHl]
  · rw [hleaves, ← hH, List.map_map]
    have : (List.range n).map ((fun i => freqs.getD (i - n) 0) ∘ fun x => n + x) = freqs := by
      apply List.ext_getElem (by simp [hn])
      intro i h1 h2
      simp [List.getElem?_eq_getElem h2]
    rw [this]
    exact hsum
  · intro t ht
    obtain ⟨i, hi, rfl⟩ := hmem t ht
    have := hw i hi
    simp only [HT.height, HT.weight, HT.leaves, List.map_cons, List.map_nil, List.sum_cons, List.sum_nil, Nat.add_zero]
    exact this
  · intro t ht s hs
    obtain ⟨i, hi, rfl⟩ := hmem t ht
    obtain ⟨j, hj, rfl⟩ := hmem s hs
    have := hw j hj
    simp only [HT.height, HT.weight, HT.leaves, List.map_cons, List.map_nil, List.sum_cons, List.sum_nil, Nat.add_zero]
    exact this
  · intro ps L hp hk
    refine ⟨ps, L, hp.trans (List.Perm.of_eq ?_), hk, ?_⟩
    · rw [← hHr, ← hH, List.map_map, List.map_map]
      apply List.map_congr_left
      intro i _
      simp [HT.weight, HT.leaves]
    · have : (((List.range n).map fun i => HT.leaf (n + i)).map (HT.cost fun i => freqs.getD (i - n) 0)).sum = 0 := by
        rw [List.sum_eq_zero]
        intro x hx
        obtain ⟨t, ht, rfl⟩ := List.mem_map.1 hx
        obtain ⟨i, -, rfl⟩ := hmem t ht
        rfl
      omega

/-- The cost is the sum of weight times depth. -/
theorem HT.cost_eq (w0 : Nat → Nat) : ∀ (d : Nat) (t : HT),
    ((t.leafDepths d).map fun p => w0 p.1 * p.2).sum = t.cost w0 + d * t.weight w0
  | d, .leaf i => by simp [leafDepths, cost, weight, leaves, Nat.mul_comm]
  | d, .node i l r => by
    simp only [leafDepths, List.map_append, List.sum_append, cost_eq w0 (d + 1), cost, weight_node]
    ring

/-- What `gen_codelengths` computes: the leaf depths of a tree over the alphabet. -/
theorem genDepths_spec (std : StdLib) (freqs : List Nat) (h2 : 2 ≤ freqs.length) (hpos : ∀ f ∈ freqs, 0 < f)
    (hsum : freqs.sum < 2 ^ 64) :
    ∃ (T : HT) (lens : List Nat), genDepths std freqs = .ok lens ∧ lens.length = freqs.length ∧
      T.leaves.Perm (List.range' freqs.length freqs.length) ∧
      (∀ i e, (i, e) ∈ T.leafDepths 0 → lens[i - freqs.length]? = some e) ∧
      Nat.fib (T.height + 2) ≤ freqs.sum ∧ lens.Perm ((T.leafDepths 0).map Prod.snd) ∧ (∀ e ∈ lens, 0 < e) ∧
      (∃ e ∈ lens, e = T.height) ∧
      (freqs.zip lens).Perm ((T.leafDepths 0).map fun p => (freqs.getD (p.1 - freqs.length) 0, p.2)) ∧
      ∀ (ps : List (Nat × Nat)) (L : Nat), ps.map Prod.fst = freqs → KraftAt L (ps.map Prod.snd) →
        T.cost (fun i => freqs.getD (i - freqs.length) 0) ≤ codeCost ps := by
  have h0 := inv_init std freqs (by omega) hpos hsum
  obtain ⟨A1, T, hm, hI⟩ := mergeLoop_spec h0
  have hT1 : T.leaves.Perm (List.range' freqs.length freqs.length) := by simpa using hI.leaves
  have hTi : T.ids.Perm (List.range' 1 (2 * freqs.length - 1)) := by simpa using hI.ids
  have hhl := hI.len
  have hA1 : 1 < A1.length := by omega
  have hid : T.id = 1 := by
    have hnode : ∃ i l r, T = .node i l r := by
      cases T with
      | leaf i =>
        have := hT1.length_eq
        simp [HT.leaves] at this
        omega
      | node i l r => exact ⟨i, l, r, rfl⟩
    obtain ⟨i, l, r, rfl⟩ := hnode
    -- 1 is a node number; its parent would be smaller
    have h1 : 1 ∈ (HT.node i l r).ids := hTi.mem_iff.2 (by rw [List.mem_range'_1]; omega)
    obtain ⟨e, he⟩ := HT.depths_of_ids (d := 0) h1
    rcases HT.parent_of (hI.lk _ (by simp)) he with ⟨h, _⟩ | ⟨p, e', hp, hlt, _⟩
    · exact h.symm
    · have := hTi.mem_iff.1 (HT.mem_ids_of_depths hp)
      rw [List.mem_range'_1] at this
      simp only at this
      omega
  have hlk : links (A1.set 1 0) T := by
    refine links_congr ?_ (hI.lk T (by simp))
    intro i hi
    have hnd : T.ids.Nodup := hTi.nodup_iff.2 List.nodup_range'
    rw [HT.ids_eq, List.nodup_cons, hid] at hnd
    rw [List.getElem?_set_ne]
    rintro rfl
    exact hnd.1 hi
  have hids : ∀ j, 1 ≤ j → j < 2 * freqs.length → ∃ e, (j, e) ∈ T.depths 0 := by
    intro j hj1 hj2
    exact HT.depths_of_ids (hTi.mem_iff.2 (by rw [List.mem_range'_1]; omega))
  obtain ⟨A2, hd, hl2, hA2⟩ := depthLoop_spec (n := freqs.length) hlk hid hids (2 * freqs.length - 2) 2
    (A1.set 1 0) (by omega) (by omega) (by simp [hhl]) (by
      intro j e hje hj
      have hj1 := hTi.mem_iff.1 (HT.mem_ids_of_depths hje)
      rw [List.mem_range'_1] at hj1
      simp only at hj1
      have : j = 1 := by omega
      subst this
      rw [List.getElem?_set_self hA1]
      rcases HT.parent_of (hI.lk T (by simp)) hje with ⟨_, rfl⟩ | ⟨p, e', hp, hlt, _⟩
      · rfl
      · have := hTi.mem_iff.1 (HT.mem_ids_of_depths hp)
        rw [List.mem_range'_1] at this
        simp only at this
        omega) (fun j hj => rfl)
  have hfib : Nat.fib (T.height + 2) ≤ freqs.sum := by
    have h1 := hI.fib1 T (by simp)
    have h2 : T.weight (fun i => freqs.getD (i - freqs.length) 0) = freqs.sum := by
      rw [HT.weight, (hT1.map _).sum_eq]
      congr 1
      apply List.ext_getElem (by simp)
      intro i h1 h2
      simp [List.getElem?_eq_getElem h2]
    omega
  have hlensget : ∀ i e, (i, e) ∈ T.leafDepths 0 →
      (A2.drop freqs.length)[i - freqs.length]? = some e := by
    intro i e hie
    have hi := hT1.mem_iff.1 (by rw [← HT.leafDepths_fst 0 T]; exact List.mem_map.2 ⟨_, hie, rfl⟩ : i ∈ T.leaves)
    rw [List.mem_range'_1] at hi
    have := hA2 i e (HT.leafDepths_sub hie) (by omega)
    have hb := HT.depth_bounds hie
    simp only at hb
    rw [List.getElem?_drop, show freqs.length + (i - freqs.length) = i by omega, this]
  have hlenl : (A2.drop freqs.length).length = freqs.length := by simp [hl2]; omega
  have hperm : (A2.drop freqs.length).Perm ((T.leafDepths 0).map Prod.snd) := by
    obtain ⟨L, hL⟩ : ∃ L, L = A2.drop freqs.length := ⟨_, rfl⟩
    rw [← hL] at hlenl hlensget ⊢
    have e1 : L = (List.range' freqs.length freqs.length).map fun i => L.getD (i - freqs.length) 0 := by
      apply List.ext_getElem (by simp [hlenl])
      intro i h1 h2
      simp [List.getElem?_eq_getElem h1]
    have e2 : (T.leafDepths 0).map Prod.snd = T.leaves.map fun i => L.getD (i - freqs.length) 0 := by
      rw [← HT.leafDepths_fst 0 T, List.map_map]
      apply List.map_congr_left
      rintro ⟨i, e⟩ hie
      simp only [Function.comp, List.getD, hlensget i e hie, Option.getD_some]
    rw [e2]
    refine List.Perm.trans (List.Perm.of_eq e1) (hT1.symm.map _)
  refine ⟨T, A2.drop freqs.length, ?_, hlenl, hT1, hlensget, hfib, hperm, ?_, ?_, ?_, ?_⟩
  · unfold genDepths
    simp only [hm]
    rw [vset_ok hA1]
    simp only [hd]
  · intro e he
    obtain ⟨p, hp, rfl⟩ := List.mem_map.1 (hperm.mem_iff.1 he)
    cases T with
    | leaf i =>
      have := hT1.length_eq
      simp [HT.leaves] at this
      omega
    | node i l r => exact HT.depth_pos hp
  · obtain ⟨p, hp, he⟩ := HT.height_attained 0 T
    exact ⟨p.2, hperm.mem_iff.2 (List.mem_map.2 ⟨p, hp, rfl⟩), by omega⟩
  · obtain ⟨L, hL⟩ : ∃ L, L = A2.drop freqs.length := ⟨_, rfl⟩
    rw [← hL] at hlenl hlensget ⊢
    have e1 : freqs.zip L = (List.range' freqs.length freqs.length).map fun i =>
        (freqs.getD (i - freqs.length) 0, L.getD (i - freqs.length) 0) := by
      apply List.ext_getElem (by simp [hlenl])
      intro i h1 h2
      simp only [List.length_zip] at h1
      simp [List.getElem?_eq_getElem (show i < freqs.length by omega), List.getElem?_eq_getElem (show i < L.length by omega)]
    have e2 : (T.leafDepths 0).map (fun p => (freqs.getD (p.1 - freqs.length) 0, p.2)) =
        T.leaves.map fun i => (freqs.getD (i - freqs.length) 0, L.getD (i - freqs.length) 0) := by
      rw [← HT.leafDepths_fst 0 T, List.map_map]
      apply List.map_congr_left
      rintro ⟨i, e⟩ hie
      simp only [Function.comp, List.getD, hlensget i e hie, Option.getD_some]
    rw [e2]
    exact List.Perm.trans (List.Perm.of_eq e1) (hT1.symm.map _)
  · intro ps L hp hk
    obtain ⟨qs, L', h1, h2, h3⟩ := hI.opt ps L (List.Perm.of_eq (by
      rw [hp]
      apply List.ext_getElem (by simp)
      intro i h1 h2
      simp [List.getElem?_eq_getElem h1])) hk
    simp only [List.map_cons, List.map_nil, List.sum_cons, List.sum_nil] at h3
    omega

theorem genCodelengths_spec (std : StdLib) (freqs : List Nat) (h2 : 2 ≤ freqs.length) (hpos : ∀ f ∈ freqs, 0 < f)
    (hsum : freqs.sum < 2 ^ 64) :
    ∃ (T : HT) (lens : List Nat), genCodelengths std freqs = .ok lens ∧ lens.length = freqs.length ∧
      T.leaves.Perm (List.range' freqs.length freqs.length) ∧
      (∀ i e, (i, e) ∈ T.leafDepths 0 → lens[i - freqs.length]? = some e) ∧
      Nat.fib (T.height + 2) ≤ freqs.sum ∧ lens.Perm ((T.leafDepths 0).map Prod.snd) ∧ (∀ e ∈ lens, 0 < e) ∧
      (∃ e ∈ lens, e = T.height) ∧
      (freqs.zip lens).Perm ((T.leafDepths 0).map fun p => (freqs.getD (p.1 - freqs.length) 0, p.2)) ∧
      ∀ (ps : List (Nat × Nat)) (L : Nat), ps.map Prod.fst = freqs → KraftAt L (ps.map Prod.snd) →
        T.cost (fun i => freqs.getD (i - freqs.length) 0) ≤ codeCost ps := by
  obtain ⟨T, lens, h1, h2', h3, h4, h5, h6, h7, h8, h9, h10⟩ := genDepths_spec std freqs h2 hpos hsum
  have hheight : T.height < 256 := by
    by_contra hge
    have h1 : Nat.fib 94 ≤ Nat.fib (T.height + 2) := Nat.fib_mono (by omega)
    have := fib_big
    omega
  have hmod : lens.map (· % 256) = lens := by
    conv => rhs; rw [← List.map_id lens]
    apply List.map_congr_left
    intro e he
    obtain ⟨p, hp, rfl⟩ := List.mem_map.1 (h6.mem_iff.1 he)
    have := HT.depth_bounds hp
    exact Nat.mod_eq_of_lt (by omega)
  refine ⟨T, lens, ?_, h2', h3, h4, h5, h6, h7, h8, h9, h10⟩
  unfold genCodelengths
  rw [h1]
  simp only [hmod]

end Tdc.Huff
