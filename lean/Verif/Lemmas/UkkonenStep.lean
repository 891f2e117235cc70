import Verif.Lemmas.Ukkonen

/-!
# The changes of the tree keep the invariant
-/

namespace Tdc
namespace Ukk

variable {P : List UInt8} {lab : Nat → List UInt8} {j : Nat} {s : S} {c : UInt8}

theorem TI.old (h : TI P lab j s) {v : Nat} (hv : s.kind v ≠ none) : v ≤ s.last := by
  refine Nat.le_of_not_lt fun hl => hv (h.fresh v hl)

theorem inner_ne {s : S} {v : Nat} (h : s.kind v = some .inner) : s.kind v ≠ none := by rw [h]; simp

theorem leaf_ne {s : S} {v : Nat} (h : s.kind v = some .leaf) : s.kind v ≠ none := by rw [h]; simp

/-! ## a new leaf -/

theorem addLeaf_kind {v : Nat} (hv : v ≠ s.last + 1) : (addLeaf s).kind v = s.kind v := upd_ne _ _ hv

theorem addLeaf_kind_new : (addLeaf s).kind (s.last + 1) = some .leaf := upd_self ..

theorem addLeaf_kid {v : Nat} {ch : UInt8} (h : ¬ (v = s.an ∧ ch = s.ae)) : (addLeaf s).kid v ch = s.kid v ch := by
  simp only [addLeaf, upd]
  by_cases e : v = s.an
  · subst e
    rw [if_pos rfl, if_neg (fun e => h ⟨rfl, e⟩)]
  · rw [if_neg e]

theorem addLeaf_kid_new : (addLeaf s).kid s.an s.ae = some (s.last + 1) := by simp [addLeaf]

theorem addLeaf_L {v : Nat} (hv : v ≠ s.last + 1) : L P lab (addLeaf s) v = L P lab s v := by
  simp only [L, addLeaf_kind hv]
  rw [show (addLeaf s).suf v = s.suf v from upd_ne _ _ hv]

theorem addLeaf_L_new : L P lab (addLeaf s) (s.last + 1) = P.drop s.suffix := by
  rw [L_leaf addLeaf_kind_new, show (addLeaf s).suf (s.last + 1) = s.suffix from upd_self ..]

theorem TI.addLeaf (h : TI (P ++ [c]) lab j s) (hj : j ≤ P.length) (han : s.kind s.an = some .inner) (hw : lab s.an = P.drop j) (hae : s.ae = c)
    (hno : s.kid s.an c = none) : TI (P ++ [c]) lab (j + 1) (addLeaf s) := by
  have hdrop : (P ++ [c]).drop j = lab s.an ++ [c] := by rw [List.drop_append_of_le_length hj, hw]
  have hnew : L (P ++ [c]) lab (Ukk.addLeaf s) (s.last + 1) = lab s.an ++ [c] := by rw [addLeaf_L_new, h.suffix, hdrop]
  have hlen : (lab s.an).length = P.length - j := by rw [hw, List.length_drop]
  -- an old node
  have old : ∀ v, (Ukk.addLeaf s).kind v ≠ none → v = s.last + 1 ∨ (v ≠ s.last + 1 ∧ s.kind v ≠ none) := by
    intro v hv
    by_cases e : v = s.last + 1
    · exact Or.inl e
    · rw [addLeaf_kind e] at hv
      exact Or.inr ⟨e, hv⟩
  have oldI : ∀ v, (Ukk.addLeaf s).kind v = some .inner → v ≠ s.last + 1 ∧ s.kind v = some .inner := by
    intro v hv
    have e : v ≠ s.last + 1 := by
      rintro rfl
      rw [addLeaf_kind_new] at hv
      cases hv
    exact ⟨e, by rwa [addLeaf_kind e] at hv⟩
  have isOld : ∀ v, s.kind v ≠ none → v ≠ s.last + 1 := fun v hv e => by have := h.old hv; omega
  -- no string goes on with the new character
  have stuck : ∀ v, s.kind v ≠ none → ¬ lab s.an ++ [c] <+: L (P ++ [c]) lab s v := by
    intro v hv hp
    obtain ⟨x, hx, -⟩ := h.child_of (a := c) han hv hp (List.prefix_append ..) (by simp)
    rw [hno] at hx
    cases hx
  refine ⟨?_, h.lab0, h.pos1, ?_, ?_, ?_, ?_, ?_, ?_, ?_, ?_, ?_, ?_, ?_, ?_⟩
  · rw [addLeaf_kind (by have := h.last; omega)]
    exact h.root
  · intro v hv
    have hv' : s.last + 1 < v := hv
    rw [addLeaf_kind (by omega)]
    exact h.fresh v (by omega)
  · show 1 ≤ s.last + 1
    omega
  · simp
    omega
  · show s.suffix + 1 = j + 1
    rw [h.suffix]
  · intro v hv
    rcases old v (leaf_ne hv) with rfl | ⟨e, hk⟩
    · rw [show (Ukk.addLeaf s).suf (s.last + 1) = s.suffix from upd_self .., h.suffix]
      omega
    · rw [addLeaf_kind e] at hv
      rw [show (Ukk.addLeaf s).suf v = s.suf v from upd_ne _ _ e]
      have := h.suf v hv
      omega
  · intro k hk
    by_cases e : k = j
    · subst e
      exact ⟨s.last + 1, addLeaf_kind_new, by rw [show (Ukk.addLeaf s).suf (s.last + 1) = s.suffix from upd_self .., h.suffix]⟩
    · obtain ⟨v, h1, h2⟩ := h.leaf k (by omega)
      have e := isOld v (leaf_ne h1)
      exact ⟨v, by rwa [addLeaf_kind e], by rwa [show (Ukk.addLeaf s).suf v = s.suf v from upd_ne _ _ e]⟩
  · intro v ch d hv hd
    obtain ⟨e, hv⟩ := oldI v hv
    by_cases hc : v = s.an ∧ ch = s.ae
    · obtain ⟨rfl, rfl⟩ := hc
      rw [addLeaf_kid_new] at hd
      cases hd
      refine ⟨by rw [addLeaf_kind_new]; simp, by rw [hnew, hae]; exact List.prefix_refl _, ?_⟩
      have hst : (Ukk.addLeaf s).start (s.last + 1) = P.length := by
        show upd s.start (s.last + 1) (s.pos1 - 1) (s.last + 1) = _
        rw [upd_self, h.pos1]
        simp
      refine ⟨by rw [hst]; omega, ?_, fun _ => ⟨upd_self .., ?_⟩, fun hk => ?_⟩
      · rw [hnew, hst, ← hdrop, hlen, show P.length - (P.length - j) = j by omega]
        exact List.prefix_refl _
      · rw [hst, show (Ukk.addLeaf s).suf (s.last + 1) = s.suffix from upd_self .., h.suffix]
        omega
      · rw [addLeaf_kind_new] at hk
        cases hk
    · rw [addLeaf_kid hc] at hd
      obtain ⟨h1, h2, h3⟩ := h.edge v ch d hv hd
      have hd' := isOld d h1
      refine ⟨by rwa [addLeaf_kind hd'], by rwa [addLeaf_L hd'], ?_⟩
      have e1 : (Ukk.addLeaf s).start d = s.start d := upd_ne _ _ hd'
      have e2 : (Ukk.addLeaf s).stop d = s.stop d := upd_ne _ _ hd'
      have e3 : (Ukk.addLeaf s).suf d = s.suf d := upd_ne _ _ hd'
      exact ⟨by rw [e1]; exact h3.le, by rw [addLeaf_L hd', e1]; exact h3.occ, by rw [addLeaf_kind hd', e1, e2, e3]; exact h3.leaf,
        by rw [addLeaf_kind hd', e1, e2]; exact h3.inner⟩
  · intro u v hu hv hne hp
    obtain ⟨hu1, hu2⟩ := oldI u hu
    have key : ∀ v, s.kind v ≠ none → u ≠ v → lab u <+: L (P ++ [c]) lab s v →
        ∃ ch d, (Ukk.addLeaf s).kid u ch = some d ∧ L (P ++ [c]) lab (Ukk.addLeaf s) d <+: L (P ++ [c]) lab s v := by
      intro v hv hne hp
      obtain ⟨ch, d, h1, h2⟩ := h.comp u v hu2 hv hne hp
      refine ⟨ch, d, ?_, ?_⟩
      · rw [addLeaf_kid, h1]
        rintro ⟨rfl, rfl⟩
        rw [hae, hno] at h1
        cases h1
      · rwa [addLeaf_L (isOld d (h.edge u ch d hu2 h1).1)]
    rcases old v hv with rfl | ⟨hv1, hv2⟩
    · rw [hnew] at hp ⊢
      by_cases e : u = s.an
      · subst e
        exact ⟨s.ae, s.last + 1, addLeaf_kid_new, by rw [hnew]; exact List.prefix_refl _⟩
      · rcases prefix_snoc hp with hp | hp
        · obtain ⟨ch, d, h1, h2⟩ := key s.an (inner_ne han) e (by rwa [L_inner han])
          rw [L_inner han] at h2
          exact ⟨ch, d, h1, h2.trans (List.prefix_append ..)⟩
        · refine absurd ?_ (stuck u (inner_ne hu2))
          rw [L_inner hu2, hp]
          exact List.prefix_refl _
    · rw [addLeaf_L hv1] at hp ⊢
      exact key v hv2 hne hp
  · intro l v hl hv hp
    rcases old v hv with rfl | ⟨hv1, hv2⟩
    · rcases old l (leaf_ne hl) with rfl | ⟨hl1, hl2⟩
      · rfl
      · exfalso
        rw [addLeaf_kind hl1] at hl
        rw [hnew, addLeaf_L hl1, L_leaf hl] at hp
        have h1 := hp.length_le
        have h2 := h.suf l hl
        simp at h1
        omega
    · rw [addLeaf_L hv1] at hp
      rcases old l (leaf_ne hl) with rfl | ⟨hl1, hl2⟩
      · rw [hnew] at hp
        exact absurd hp (stuck v hv2)
      · rw [addLeaf_L hl1] at hp
        rw [addLeaf_kind hl1] at hl
        exact h.leafMax l v hl hv2 hp
  · intro u v hu hv
    exact h.inj u v (oldI u hu).2 (oldI v hv).2
  · intro v h0 hv
    obtain ⟨a, b, x, y, hab, hx, hy⟩ := h.branch v h0 (oldI v hv).2
    have : ∀ (a : UInt8) (x : Nat), s.kid v a = some x → ∃ x', (Ukk.addLeaf s).kid v a = some x' := by
      intro a x hx
      by_cases hc : v = s.an ∧ a = s.ae
      · obtain ⟨rfl, rfl⟩ := hc
        exact ⟨_, addLeaf_kid_new⟩
      · exact ⟨x, by rwa [addLeaf_kid hc]⟩
    obtain ⟨x', hx'⟩ := this a x hx
    obtain ⟨y', hy'⟩ := this b y hy
    exact ⟨a, b, x', y', hab, hx', hy'⟩
  · intro v h0 hv
    rcases old v hv with rfl | ⟨hv1, hv2⟩
    · exact ⟨s.last + 1, addLeaf_kind_new, List.prefix_refl _⟩
    · obtain ⟨l, hl1, hl2⟩ := h.leafy v h0 hv2
      have e := isOld l (leaf_ne hl1)
      exact ⟨l, by rwa [addLeaf_kind e], by rwa [addLeaf_L hv1, addLeaf_L e]⟩

/-! ## splitting an edge -/

variable {d : UInt8} {next : Nat}

theorem split_kind {v : Nat} (h1 : v ≠ s.last + 1) (h2 : v ≠ s.last + 2) : (splitEdge c d next s).kind v = s.kind v := by
  show upd (upd s.kind _ _) _ _ v = _
  rw [upd_ne _ _ h2, upd_ne _ _ h1]

theorem split_kind_mid : (splitEdge c d next s).kind (s.last + 1) = some .inner := by
  show upd (upd s.kind _ _) _ _ _ = _
  rw [upd_ne _ _ (by omega), upd_self]

theorem split_kind_leaf : (splitEdge c d next s).kind (s.last + 2) = some .leaf := upd_self ..

theorem split_suf {v : Nat} (h2 : v ≠ s.last + 2) : (splitEdge c d next s).suf v = s.suf v := upd_ne _ _ h2

theorem split_suf_leaf : (splitEdge c d next s).suf (s.last + 2) = s.suffix := upd_self ..

theorem split_stop {v : Nat} (h1 : v ≠ s.last + 1) (h2 : v ≠ s.last + 2) : (splitEdge c d next s).stop v = s.stop v := by
  show upd (upd s.stop _ _) _ _ v = _
  rw [upd_ne _ _ h2, upd_ne _ _ h1]

theorem split_start {v : Nat} (h1 : v ≠ s.last + 1) (h2 : v ≠ s.last + 2) (h3 : v ≠ next) : (splitEdge c d next s).start v = s.start v := by
  show upd (upd (upd s.start _ _) _ _) _ _ v = _
  rw [upd_ne _ _ h3, upd_ne _ _ h2, upd_ne _ _ h1]

theorem split_start_next : (splitEdge c d next s).start next = s.start next + s.al := upd_self ..

theorem split_kid {v : Nat} {ch : UInt8} (h1 : v ≠ s.last + 1) (h : ¬ (v = s.an ∧ ch = s.ae)) : (splitEdge c d next s).kid v ch = s.kid v ch := by
  show upd (upd s.kid _ _) _ _ v ch = _
  rw [upd_ne _ _ h1]
  simp only [upd]
  by_cases e : v = s.an
  · subst e
    rw [if_pos rfl, if_neg (fun e => h ⟨rfl, e⟩)]
  · rw [if_neg e]

theorem split_kid_an (h1 : s.an ≠ s.last + 1) : (splitEdge c d next s).kid s.an s.ae = some (s.last + 1) := by
  show upd (upd s.kid _ _) _ _ _ _ = _
  rw [upd_ne _ _ h1, upd_self, if_pos rfl]

theorem split_kid_mid (ch : UInt8) :
    (splitEdge c d next s).kid (s.last + 1) ch = if ch = d then some next else if ch = c then some (s.last + 2) else none := by
  show upd (upd s.kid _ _) _ _ _ _ = _
  rw [upd_self]

theorem TI.split (h : TI (P ++ [c]) lab j s) (hj : j ≤ P.length) (han : s.kind s.an = some .inner) (hnx : s.kid s.an s.ae = some next)
    (hw : lab s.an <+: P.drop j) (hal : (lab s.an).length + s.al = (P.drop j).length) (h0 : 0 < s.al) (hwn : P.drop j ++ [d] <+: L (P ++ [c]) lab s next)
    (hdc : d ≠ c) : TI (P ++ [c]) (upd lab (s.last + 1) (P.drop j)) (j + 1) (splitEdge c d next s) := by
  obtain ⟨w, hwdef⟩ : ∃ w, w = P.drop j := ⟨_, rfl⟩
  rw [← hwdef] at hw hal hwn ⊢
  have hdrop : (P ++ [c]).drop j = w ++ [c] := by rw [List.drop_append_of_le_length hj, hwdef]
  have hlen : w.length = P.length - j := by rw [hwdef, List.length_drop]
  obtain ⟨hnk, hne1, hne2⟩ := h.edge s.an s.ae next han hnx
  have isOld : ∀ v, s.kind v ≠ none → v ≠ s.last + 1 ∧ v ≠ s.last + 2 := fun v hv => by have := h.old hv; omega
  have onx := isOld next hnk
  have oan := isOld s.an (inner_ne han)
  have hwx : w <+: L (P ++ [c]) lab s next := (List.prefix_append ..).trans hwn
  have hae : w[(lab s.an).length]? = some s.ae := by
    rw [← prefix_getElem? hwx (by omega)]
    exact (snoc_prefix.1 hne1).2
  have hnlen : w.length < (L (P ++ [c]) lab s next).length := by have := hwn.length_le; simp at this; omega
  -- old nodes
  have labOld : ∀ v, s.kind v ≠ none → upd lab (s.last + 1) w v = lab v := fun v hv => upd_ne _ _ (isOld v hv).1
  have LOld : ∀ v, s.kind v ≠ none → L (P ++ [c]) (upd lab (s.last + 1) w) (splitEdge c d next s) v = L (P ++ [c]) lab s v := by
    intro v hv
    simp only [L, split_kind (isOld v hv).1 (isOld v hv).2, labOld v hv, split_suf (isOld v hv).2]
  have LMid : L (P ++ [c]) (upd lab (s.last + 1) w) (splitEdge c d next s) (s.last + 1) = w := by rw [L_inner split_kind_mid, upd_self]
  have LLeaf : L (P ++ [c]) (upd lab (s.last + 1) w) (splitEdge c d next s) (s.last + 2) = w ++ [c] := by
    rw [L_leaf split_kind_leaf, split_suf_leaf, h.suffix, hdrop]
  have cases3 : ∀ v, (splitEdge c d next s).kind v ≠ none → v = s.last + 1 ∨ v = s.last + 2 ∨ s.kind v ≠ none := by
    intro v hv
    by_cases e1 : v = s.last + 1
    · exact Or.inl e1
    by_cases e2 : v = s.last + 2
    · exact Or.inr (Or.inl e2)
    rw [split_kind e1 e2] at hv
    exact Or.inr (Or.inr hv)
  have casesI : ∀ v, (splitEdge c d next s).kind v = some .inner → v = s.last + 1 ∨ s.kind v = some .inner := by
    intro v hv
    rcases cases3 v (inner_ne hv) with e | rfl | hk
    · exact Or.inl e
    · rw [split_kind_leaf] at hv
      cases hv
    · rw [split_kind (isOld v hk).1 (isOld v hk).2] at hv
      exact Or.inr hv
  have casesL : ∀ v, (splitEdge c d next s).kind v = some .leaf → v = s.last + 2 ∨ s.kind v = some .leaf := by
    intro v hv
    rcases cases3 v (leaf_ne hv) with rfl | e | hk
    · rw [split_kind_mid] at hv
      cases hv
    · exact Or.inl e
    · rw [split_kind (isOld v hk).1 (isOld v hk).2] at hv
      exact Or.inr hv
  -- from the active node towards a string that goes on with the active edge
  have via : ∀ v z, s.kind v ≠ none → z <+: L (P ++ [c]) lab s v → lab s.an <+: z → z[(lab s.an).length]? = some s.ae →
      L (P ++ [c]) lab s next <+: L (P ++ [c]) lab s v := by
    intro v z hv hz hp ha
    obtain ⟨x, hx, hx2⟩ := h.child_of han hv hz hp ha
    rw [hnx] at hx
    cases hx
    exact hx2
  have viaW : ∀ v, s.kind v ≠ none → w <+: L (P ++ [c]) lab s v → L (P ++ [c]) lab s next <+: L (P ++ [c]) lab s v := fun v hv hz =>
    via v w hv hz hw hae
  -- no string goes on with the new character
  have stuck : ∀ v, s.kind v ≠ none → ¬ w ++ [c] <+: L (P ++ [c]) lab s v := by
    intro v hv hp
    have h1 := viaW v hv ((List.prefix_append ..).trans hp)
    have h2 := (snoc_prefix.1 (hwn.trans h1)).2
    rw [(snoc_prefix.1 hp).2] at h2
    cases h2
    exact hdc rfl
  -- inner nodes above the new one
  have above : ∀ u, s.kind u = some .inner → lab u <+: w → u = s.an ∨ (u ≠ s.an ∧ lab u <+: lab s.an) := by
    intro u hu hp
    by_cases e : u = s.an
    · exact Or.inl e
    refine Or.inr ⟨e, prefix_total hp hw ?_⟩
    refine Nat.le_of_not_lt fun hl => ?_
    have hp2 := prefix_total hw hp (by omega)
    have h1 := via u (lab u) (inner_ne hu) (by rw [L_inner hu]; exact List.prefix_refl _) hp2 (by rw [← prefix_getElem? hp hl]; exact hae)
    rw [L_inner hu] at h1
    have := h1.length_le
    have := hp.length_le
    omega
  have notW : ∀ u, s.kind u = some .inner → lab u ≠ w := by
    rintro u hu rfl
    rcases above u hu (List.prefix_refl _) with rfl | ⟨-, hp⟩
    · omega
    · have := hp.length_le
      omega
  -- children of old nodes towards old nodes
  have compOld : ∀ u v, s.kind u = some .inner → s.kind v ≠ none → u ≠ v → lab u <+: L (P ++ [c]) lab s v →
      ∃ ch x, (splitEdge c d next s).kid u ch = some x ∧
        L (P ++ [c]) (upd lab (s.last + 1) w) (splitEdge c d next s) x <+: L (P ++ [c]) lab s v := by
    intro u v hu hv hne hp
    obtain ⟨ch, x, h1, h2⟩ := h.comp u v hu hv hne hp
    by_cases hc : u = s.an ∧ ch = s.ae
    · obtain ⟨rfl, rfl⟩ := hc
      rw [hnx] at h1
      cases h1
      exact ⟨s.ae, s.last + 1, split_kid_an oan.1, by rw [LMid]; exact hwx.trans h2⟩
    · exact ⟨ch, x, by rwa [split_kid (isOld u (inner_ne hu)).1 hc], by rwa [LOld x (h.edge u ch x hu h1).1]⟩
  have compW : ∀ u, s.kind u = some .inner → lab u <+: w → ∃ ch x, (splitEdge c d next s).kid u ch = some x ∧
      L (P ++ [c]) (upd lab (s.last + 1) w) (splitEdge c d next s) x <+: w := by
    intro u hu hp
    rcases above u hu hp with rfl | ⟨e, hp⟩
    · exact ⟨s.ae, s.last + 1, split_kid_an oan.1, by rw [LMid]; exact List.prefix_refl _⟩
    · obtain ⟨ch, x, h1, h2⟩ := compOld u s.an hu (inner_ne han) e (by rwa [L_inner han])
      rw [L_inner han] at h2
      exact ⟨ch, x, h1, h2.trans hw⟩
  refine ⟨?_, ?_, h.pos1, ?_, ?_, ?_, ?_, ?_, ?_, ?_, ?_, ?_, ?_, ?_, ?_⟩
  · rw [split_kind (by have := h.last; omega) (by omega)]
    exact h.root
  · rw [upd_ne _ _ (by have := h.last; omega)]
    exact h.lab0
  · intro v hv
    have hv' : s.last + 2 < v := hv
    rw [split_kind (by omega) (by omega)]
    exact h.fresh v (by omega)
  · show 1 ≤ s.last + 2
    omega
  · simp
    omega
  · show s.suffix + 1 = j + 1
    rw [h.suffix]
  · intro v hv
    rcases casesL v hv with rfl | hk
    · rw [split_suf_leaf, h.suffix]
      omega
    · rw [split_suf (isOld v (leaf_ne hk)).2]
      have := h.suf v hk
      omega
  · intro k hk
    by_cases e : k = j
    · subst e
      exact ⟨s.last + 2, split_kind_leaf, by rw [split_suf_leaf, h.suffix]⟩
    · obtain ⟨v, h1, h2⟩ := h.leaf k (by omega)
      have o := isOld v (leaf_ne h1)
      exact ⟨v, by rwa [split_kind o.1 o.2], by rwa [split_suf o.2]⟩
  · intro v ch x hv hx
    rcases casesI v hv with rfl | hvk
    · -- the new inner node
      rw [split_kid_mid] at hx
      by_cases e : ch = d
      · rw [if_pos e] at hx
        cases hx
        subst e
        refine ⟨by rwa [split_kind onx.1 onx.2], by rw [upd_self, LOld _ hnk]; exact hwn, ?_⟩
        refine ⟨?_, ?_, ?_, ?_⟩
        · rw [upd_self, split_start_next]
          have := hne2.le
          omega
        · rw [upd_self, LOld _ hnk, split_start_next, show s.start next + s.al - w.length = s.start next - (lab s.an).length by have := hne2.le; omega]
          exact hne2.occ
        · intro hk
          rw [split_kind onx.1 onx.2] at hk
          obtain ⟨a, b⟩ := hne2.leaf hk
          rw [split_stop onx.1 onx.2, split_start_next, split_suf onx.2, upd_self]
          exact ⟨a, by omega⟩
        · intro hk
          rw [split_kind onx.1 onx.2] at hk
          have := hne2.inner hk
          have := hne2.le
          rw [split_stop onx.1 onx.2, split_start_next, upd_self, labOld _ hnk]
          omega
      · rw [if_neg e] at hx
        by_cases e2 : ch = c
        · rw [if_pos e2] at hx
          cases hx
          subst e2
          have hst : (splitEdge ch d next s).start (s.last + 2) = P.length := by
            show upd (upd (upd s.start _ _) _ _) _ _ _ = _
            rw [upd_ne _ _ (Ne.symm onx.2), upd_self, h.pos1]
            simp
          refine ⟨by rw [split_kind_leaf]; simp, by rw [upd_self, LLeaf]; exact List.prefix_refl _, ?_⟩
          refine ⟨by rw [upd_self, hst]; omega, ?_, fun _ => ⟨?_, ?_⟩, fun hk => ?_⟩
          · rw [upd_self, LLeaf, hst, ← hdrop, hlen, show P.length - (P.length - j) = j by omega]
            exact List.prefix_refl _
          · show upd (upd s.stop _ _) _ _ _ = _
            rw [upd_self]
          · rw [hst, split_suf_leaf, h.suffix, upd_self]
            omega
          · rw [split_kind_leaf] at hk
            cases hk
        · rw [if_neg e2] at hx
          cases hx
    · have ov := isOld v (inner_ne hvk)
      by_cases hc : v = s.an ∧ ch = s.ae
      · obtain ⟨rfl, rfl⟩ := hc
        rw [split_kid_an oan.1] at hx
        cases hx
        have hst : (splitEdge c d next s).start (s.last + 1) = s.start next := by
          show upd (upd (upd s.start _ _) _ _) _ _ _ = _
          rw [upd_ne _ _ (Ne.symm onx.1), upd_ne _ _ (by omega), upd_self]
        have hsp : (splitEdge c d next s).stop (s.last + 1) = s.start next + s.al := by
          show upd (upd s.stop _ _) _ _ _ = _
          rw [upd_ne _ _ (by omega), upd_self]
        refine ⟨by rw [split_kind_mid]; simp, ?_, ?_⟩
        · rw [labOld _ (inner_ne hvk), LMid]
          exact snoc_prefix.2 ⟨hw, hae⟩
        · refine ⟨?_, ?_, fun hk => ?_, fun _ => ?_⟩
          · rw [labOld _ (inner_ne hvk), hst]
            exact hne2.le
          · rw [labOld _ (inner_ne hvk), hst, LMid]
            exact hwx.trans hne2.occ
          · rw [split_kind_mid] at hk
            cases hk
          · rw [labOld _ (inner_ne hvk), hst, hsp, upd_self]
            have := hne2.le
            omega
      · rw [split_kid ov.1 hc] at hx
        obtain ⟨h1, h2, h3⟩ := h.edge v ch x hvk hx
        have ox := isOld x h1
        have hxn : x ≠ next := by
          rintro rfl
          obtain ⟨e1, e2⟩ := h.parent_unique hvk han hx hnx
          exact hc ⟨e1, e2⟩
        refine ⟨by rwa [split_kind ox.1 ox.2], by rwa [labOld _ (inner_ne hvk), LOld x h1], ?_⟩
        refine ⟨?_, ?_, ?_, ?_⟩
        · rw [labOld _ (inner_ne hvk), split_start ox.1 ox.2 hxn]
          exact h3.le
        · rw [labOld _ (inner_ne hvk), LOld x h1, split_start ox.1 ox.2 hxn]
          exact h3.occ
        · rw [labOld _ (inner_ne hvk), split_start ox.1 ox.2 hxn, split_kind ox.1 ox.2, split_stop ox.1 ox.2, split_suf ox.2]
          exact h3.leaf
        · rw [labOld _ (inner_ne hvk), split_start ox.1 ox.2 hxn, split_kind ox.1 ox.2, split_stop ox.1 ox.2, labOld x h1]
          exact h3.inner
  · intro u v hu hv hne hp
    rcases casesI u hu with rfl | huk
    · rw [upd_self] at hp
      rcases cases3 v hv with rfl | rfl | hvk
      · exact absurd rfl hne
      · exact ⟨c, s.last + 2, by rw [split_kid_mid, if_neg (Ne.symm hdc), if_pos rfl], List.prefix_refl _⟩
      · rw [LOld v hvk] at hp ⊢
        exact ⟨d, next, by rw [split_kid_mid, if_pos rfl], by rw [LOld next hnk]; exact viaW v hvk hp⟩
    · rw [labOld u (inner_ne huk)] at hp
      rcases cases3 v hv with rfl | rfl | hvk
      · rw [LMid] at hp ⊢
        exact compW u huk hp
      · rw [LLeaf] at hp ⊢
        rcases prefix_snoc hp with hp | hp
        · obtain ⟨ch, x, h1, h2⟩ := compW u huk hp
          exact ⟨ch, x, h1, h2.trans (List.prefix_append ..)⟩
        · refine absurd ?_ (stuck u (inner_ne huk))
          rw [L_inner huk, hp]
          exact List.prefix_refl _
      · rw [LOld v hvk] at hp ⊢
        exact compOld u v huk hvk hne hp
  · intro l v hl hv hp
    rcases casesL l hl with rfl | hlk
    · rw [LLeaf] at hp
      rcases cases3 v hv with rfl | rfl | hvk
      · rw [LMid] at hp
        have := hp.length_le
        simp at this
        omega
      · rfl
      · rw [LOld v hvk] at hp
        exact absurd hp (stuck v hvk)
    · rw [LOld l (leaf_ne hlk)] at hp
      have h2 := h.suf l hlk
      rcases cases3 v hv with rfl | rfl | hvk
      · rw [LMid, L_leaf hlk] at hp
        have h1 := hp.length_le
        simp at h1
        omega
      · rw [LLeaf, L_leaf hlk] at hp
        have h1 := hp.length_le
        simp at h1
        omega
      · rw [LOld v hvk] at hp
        exact h.leafMax l v hlk hvk hp
  · intro u v hu hv hl
    rcases casesI u hu with rfl | huk <;> rcases casesI v hv with rfl | hvk
    · rfl
    · rw [upd_self, labOld v (inner_ne hvk)] at hl
      exact absurd hl.symm (notW v hvk)
    · rw [upd_self, labOld u (inner_ne huk)] at hl
      exact absurd hl (notW u huk)
    · rw [labOld u (inner_ne huk), labOld v (inner_ne hvk)] at hl
      exact h.inj u v huk hvk hl
  · intro v hv0 hv
    rcases casesI v hv with rfl | hvk
    · exact ⟨d, c, next, s.last + 2, hdc, by rw [split_kid_mid, if_pos rfl], by rw [split_kid_mid, if_neg (Ne.symm hdc), if_pos rfl]⟩
    · obtain ⟨a, b, x, y, hab, hx, hy⟩ := h.branch v hv0 hvk
      have ov := isOld v (inner_ne hvk)
      have : ∀ (a : UInt8) (x : Nat), s.kid v a = some x → ∃ x', (splitEdge c d next s).kid v a = some x' := by
        intro a x hx
        by_cases hc : v = s.an ∧ a = s.ae
        · obtain ⟨rfl, rfl⟩ := hc
          exact ⟨_, split_kid_an oan.1⟩
        · exact ⟨x, by rwa [split_kid ov.1 hc]⟩
      obtain ⟨x', hx'⟩ := this a x hx
      obtain ⟨y', hy'⟩ := this b y hy
      exact ⟨a, b, x', y', hab, hx', hy'⟩
  · intro v hv0 hv
    rcases cases3 v hv with rfl | rfl | hvk
    · obtain ⟨l, hl1, hl2⟩ := h.leafy next (h.kid_ne han hnx) hnk
      have ol := isOld l (leaf_ne hl1)
      exact ⟨l, by rwa [split_kind ol.1 ol.2], by rw [LMid, LOld l (leaf_ne hl1)]; exact hwx.trans hl2⟩
    · exact ⟨s.last + 2, split_kind_leaf, List.prefix_refl _⟩
    · obtain ⟨l, hl1, hl2⟩ := h.leafy v hv0 hvk
      have ol := isOld l (leaf_ne hl1)
      exact ⟨l, by rwa [split_kind ol.1 ol.2], by rwa [LOld v hvk, LOld l (leaf_ne hl1)]⟩

end Ukk
end Tdc
