import Verif.Lemmas.UkkonenLoop
import Verif.Spec.SuffixTreeDef

/-!
# The invariant of Ukkonen's algorithm describes a suffix tree
-/

namespace Tdc
namespace Ukk

/-- `V` shows the tree -/
structure Shows (T : List UInt8) (s : S) (V : TreeView) : Prop where
  nodup : ∀ v, s.kind v = some .inner → (V.kids v).Nodup
  kids : ∀ v, s.kind v = some .inner → ∀ c, c ∈ V.kids v ↔ ∃ ch, s.kid v ch = some c
  none : ∀ v, s.kind v = some .leaf → V.kids v = []
  edge : ∀ v ch c, s.kind v = some .inner → s.kid v ch = some c → V.edge c = (T.drop (s.start c)).take (edgeLength s c)
  leaf : ∀ v, s.kind v ≠ .none → V.leaf v = if s.kind v = some .leaf then some (s.suf v) else Option.none

variable {T : List UInt8} {lab : Nat → List UInt8} {j : Nat} {s : S} {V : TreeView}

theorem edge_string (h : TI T lab j s) {v c : Nat} {ch : UInt8} (hv : s.kind v = some .inner) (hc : s.kid v ch = some c) :
    lab v ++ (T.drop (s.start c)).take (edgeLength s c) = L T lab s c := by
  obtain ⟨h1, h2, h3⟩ := h.edge v ch c hv hc
  have hl := h.edgeLength_eq hv hc
  have e1 : L T lab s c = (T.drop (s.start c - (lab v).length)).take (L T lab s c).length := List.prefix_iff_eq_take.1 h3.occ
  have e2 : lab v = (T.drop (s.start c - (lab v).length)).take (lab v).length :=
    List.prefix_iff_eq_take.1 (((List.prefix_append ..).trans h2).trans h3.occ)
  have e3 : (T.drop (s.start c - (lab v).length)).drop (lab v).length = T.drop (s.start c) := by
    rw [List.drop_drop]
    congr 1
    have := h3.le
    omega
  generalize hX : T.drop (s.start c - (lab v).length) = X at e1 e2 e3
  rw [← e3, e1, ← hl, Nat.add_comm, List.take_add, ← e2]

theorem Spells.label (h : TI T lab j s) (hV : Shows T s V) {v : Nat} {w : List UInt8} (hs : Spells V v w) : s.kind v ≠ none ∧ w = L T lab s v := by
  induction hs with
  | root => exact ⟨inner_ne h.root, by rw [L_inner h.root, h.lab0]⟩
  | @step v c w hs hc ih =>
    obtain ⟨h1, h2⟩ := ih
    rcases kind_cases h1 with hk | hk
    · rw [hV.none v hk] at hc
      cases hc
    · obtain ⟨ch, hch⟩ := (hV.kids v hk c).1 hc
      refine ⟨(h.edge v ch c hk hch).1, ?_⟩
      rw [h2, L_inner hk, hV.edge v ch c hk hch, edge_string h hk hch]

theorem Spells.kid (h : TI T lab j s) (hV : Shows T s V) {v c : Nat} {ch : UInt8} (hv : s.kind v = some .inner) (hc : s.kid v ch = some c)
    (hs : Spells V v (lab v)) : Spells V c (L T lab s c) := by
  have := hs.step ((hV.kids v hv c).2 ⟨ch, hc⟩)
  rwa [hV.edge v ch c hv hc, edge_string h hv hc] at this

theorem Spells.reach (h : TI T lab j s) (hV : Shows T s V) {v : Nat} (hv : s.kind v ≠ none) : ∀ (n u : Nat), s.kind u = some .inner → Spells V u (lab u) →
    u ≠ v → lab u <+: L T lab s v → (L T lab s v).length ≤ n + (lab u).length → Spells V v (L T lab s v)
  | 0, u, hu, _, hne, hp, hn => by
    obtain ⟨ch, c, h1, h2⟩ := h.comp u v hu hv hne hp
    have := h.kid_longer hu h1
    have := h2.length_le
    omega
  | n + 1, u, hu, hs, hne, hp, hn => by
    obtain ⟨ch, c, h1, h2⟩ := h.comp u v hu hv hne hp
    have hl := h.kid_longer hu h1
    have hsc := Spells.kid h hV hu h1 hs
    by_cases e : c = v
    · rw [← e]
      exact hsc
    · rcases kind_cases (h.edge u ch c hu h1).1 with hk | hk
      · exact absurd (h.leafMax c v hk hv h2).symm e
      · rw [L_inner hk] at hsc h2 hl
        exact Spells.reach h hV hv n c hk hsc e h2 (by omega)

theorem Spells.all (h : TI T lab j s) (hV : Shows T s V) {v : Nat} (hv : s.kind v ≠ none) : Spells V v (L T lab s v) := by
  by_cases e : v = 0
  · subst e
    rw [L_inner h.root, h.lab0]
    exact .root
  · refine Spells.reach h hV hv (L T lab s v).length 0 h.root ?_ (Ne.symm e) ?_ (by omega)
    · rw [h.lab0]
      exact .root
    · rw [h.lab0]
      exact List.nil_prefix

theorem two_le {l : List Nat} {x y : Nat} (hx : x ∈ l) (hy : y ∈ l) (hne : x ≠ y) : 2 ≤ l.length := by
  match l with
  | [] => cases hx
  | [a] =>
    simp at hx hy
    omega
  | a :: b :: l => simp

/-- every suffix is in the tree -/
theorem suffix_in (h : TI T lab j s) (hi : InTree T lab s (T.drop j)) : ∀ k, k < T.length → ∃ l, s.kind l = some .leaf ∧ T.drop k <+: L T lab s l := by
  intro k
  induction k using Nat.strongRecOn with
  | _ k ih =>
    intro hk
    by_cases hj : k < j
    · obtain ⟨l, h1, h2⟩ := h.leaf k hj
      exact ⟨l, h1, by rw [L_leaf h1, h2]; exact List.prefix_refl _⟩
    · rcases hi with e | ⟨l, h1, h2⟩
      · rw [List.drop_eq_nil_iff] at e
        omega
      · rw [L_leaf h1] at h2
        have h3 := h.suf l h1
        have h4 : T.drop k <+: T.drop (s.suf l + (k - j)) := by
          have : T.drop k = (T.drop j).drop (k - j) := by rw [List.drop_drop]; congr 1; omega
          rw [this, ← List.drop_drop]
          obtain ⟨t, ht⟩ := h2
          rw [← ht, List.drop_append_of_le_length (by rw [List.length_drop]; omega)]
          exact List.prefix_append ..
        obtain ⟨l', m1, m2⟩ := ih (s.suf l + (k - j)) (by omega) (by omega)
        exact ⟨l', m1, h4.trans m2⟩

theorem isImplicit (h : TI T lab j s) (hi : InTree T lab s (T.drop j)) (hV : Shows T s V) : IsImplicitSuffixTree T V where
  words := by
    intro w
    constructor
    · rintro ⟨v, u, hs⟩
      obtain ⟨h1, h2⟩ := Spells.label h hV hs
      by_cases h0 : v = 0
      · subst h0
        rw [L_inner h.root, h.lab0] at h2
        rw [(List.append_eq_nil_iff.1 h2).1]
        exact List.nil_infix
      · obtain ⟨l, l1, l2⟩ := h.leafy v h0 h1
        rw [L_leaf l1] at l2
        have : w <+: T.drop (s.suf l) := by
          refine List.IsPrefix.trans ?_ l2
          rw [← h2]
          exact List.prefix_append ..
        exact this.isInfix.trans (List.drop_suffix ..).isInfix
    · rintro ⟨a, b, hT⟩
      by_cases hw : w = []
      · subst hw
        exact ⟨0, [], .root⟩
      · have hlen : a.length < T.length := by
          have : 0 < w.length := List.length_pos_iff.2 hw
          have := congrArg List.length hT
          simp at this
          omega
        obtain ⟨l, l1, l2⟩ := suffix_in h hi a.length hlen
        have : w <+: L T lab s l := by
          refine List.IsPrefix.trans ?_ l2
          rw [← hT, List.append_assoc, List.drop_left]
          exact List.prefix_append ..
        obtain ⟨u, hu⟩ := this
        exact ⟨l, u, by rw [hu]; exact Spells.all h hV (leaf_ne l1)⟩
  path := fun v w w' h1 h2 => (Spells.label h hV h1).2.trans (Spells.label h hV h2).2.symm
  point := by
    intro v v' w h1 h2
    obtain ⟨k1, e1⟩ := Spells.label h hV h1
    obtain ⟨k2, e2⟩ := Spells.label h hV h2
    rcases kind_cases k1 with hk | hk
    · exact (h.leafMax v v' hk k2 (by rw [← e1, ← e2]; exact List.prefix_refl _)).symm
    · rcases kind_cases k2 with hk2 | hk2
      · exact h.leafMax v' v hk2 k1 (by rw [← e1, ← e2]; exact List.prefix_refl _)
      · rw [L_inner hk] at e1
        rw [L_inner hk2] at e2
        exact h.inj v v' hk hk2 (e1.symm.trans e2)
  nodup := by
    intro v w hs
    obtain ⟨k1, e1⟩ := Spells.label h hV hs
    rcases kind_cases k1 with hk | hk
    · rw [hV.none v hk]
      exact List.nodup_nil
    · exact hV.nodup v hk
  edge := by
    intro v w c hs hc he
    obtain ⟨k1, e1⟩ := Spells.label h hV hs
    rcases kind_cases k1 with hk | hk
    · rw [hV.none v hk] at hc
      cases hc
    · obtain ⟨ch, hch⟩ := (hV.kids v hk c).1 hc
      have h1 := edge_string h hk hch
      rw [← hV.edge v ch c hk hch, he, List.append_nil] at h1
      have := h.kid_longer hk hch
      rw [h1] at this
      omega
  branch := by
    intro v w c c' hs hc hc' he
    obtain ⟨k1, e1⟩ := Spells.label h hV hs
    rcases kind_cases k1 with hk | hk
    · rw [hV.none v hk] at hc
      cases hc
    · have key : ∀ x (ch : UInt8), s.kid v ch = some x → (V.edge x).head? = some ch := by
        intro x ch hx
        have h1 := edge_string h hk hx
        rw [← hV.edge v ch x hk hx] at h1
        have h2 := (snoc_prefix.1 (h.edge v ch x hk hx).2.1).2
        rw [← h1, List.getElem?_append_right (Nat.le_refl _), Nat.sub_self] at h2
        rw [List.head?_eq_getElem?]
        exact h2
      obtain ⟨ch, hch⟩ := (hV.kids v hk c).1 hc
      obtain ⟨ch', hch'⟩ := (hV.kids v hk c').1 hc'
      rw [key c ch hch, key c' ch' hch'] at he
      cases he
      rw [hch] at hch'
      exact Option.some.inj hch'
  inner := by
    intro v w hs h0 hl
    obtain ⟨k1, e1⟩ := Spells.label h hV hs
    rcases kind_cases k1 with hk | hk
    · rw [hV.leaf v k1, if_pos hk] at hl
      cases hl
    · obtain ⟨a, b, x, y, hab, hx, hy⟩ := h.branch v h0 hk
      refine two_le ((hV.kids v hk x).2 ⟨a, hx⟩) ((hV.kids v hk y).2 ⟨b, hy⟩) ?_
      rintro rfl
      exact hab (h.parent_unique hk hk hx hy).2
  leaf := by
    intro v w p hs hl
    obtain ⟨k1, e1⟩ := Spells.label h hV hs
    rw [hV.leaf v k1] at hl
    by_cases hk : s.kind v = some .leaf
    · rw [if_pos hk] at hl
      cases hl
      refine ⟨hV.none v hk, ?_, by rw [e1, L_leaf hk]⟩
      have := h.suf v hk
      have := h.jle
      omega
    · rw [if_neg hk] at hl
      cases hl

/-- with a last character that occurs once every suffix has got its leaf -/
theorem all_leaves (h : TI T lab j s) (hi : InTree T lab s (T.drop j)) (hu : UniqueEnd T) : j = T.length := by
  obtain ⟨u, x, rfl, hx⟩ := hu
  have hj := h.jle
  simp at hj
  refine Classical.byContradiction fun hne => ?_
  simp at hne
  rcases hi with e | ⟨l, h1, h2⟩
  · rw [List.drop_eq_nil_iff] at e
    simp at e
    omega
  · rw [L_leaf h1] at h2
    have h3 := h.suf l h1
    have h4 := prefix_getElem? h2 (i := u.length - j) (by rw [List.length_drop]; simp; omega)
    rw [List.getElem?_drop, List.getElem?_drop, show j + (u.length - j) = u.length by omega, List.getElem?_append_right (Nat.le_refl _), Nat.sub_self,
      List.getElem?_append_left (by omega)] at h4
    exact hx (List.mem_of_getElem? h4)

theorem isSuffixTree (h : TI T lab j s) (hi : InTree T lab s (T.drop j)) (hu : UniqueEnd T) (hV : Shows T s V) : IsSuffixTree T V where
  implicit := isImplicit h hi hV
  all := by
    intro p hp
    have hj := all_leaves h hi hu
    obtain ⟨l, h1, h2⟩ := h.leaf p (by omega)
    exact ⟨l, _, Spells.all h hV (leaf_ne h1), by rw [hV.leaf l (leaf_ne h1), if_pos h1, h2]⟩

end Ukk
end Tdc
