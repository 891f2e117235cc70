import Verif.Model.SuffixTree

/-!
# Invariants of Ukkonen's algorithm

`P` is the part of the text read so far, `lab v` the string of the inner node `v`, `j` the number of leaves.
-/

namespace Tdc
namespace Ukk

@[simp] theorem upd_self {β : Type} (f : Nat → β) (v : Nat) (x : β) : upd f v x v = x := by simp [upd]

theorem upd_ne {β : Type} (f : Nat → β) {v u : Nat} (x : β) (h : u ≠ v) : upd f v x u = f u := by simp [upd, h]

/-- the string of a node -/
def L (P : List UInt8) (lab : Nat → List UInt8) (s : S) (v : Nat) : List UInt8 := if s.kind v = some .leaf then P.drop (s.suf v) else lab v

theorem L_leaf {P : List UInt8} {lab : Nat → List UInt8} {s : S} {v : Nat} (h : s.kind v = some .leaf) : L P lab s v = P.drop (s.suf v) := if_pos h

theorem L_inner {P : List UInt8} {lab : Nat → List UInt8} {s : S} {v : Nat} (h : s.kind v = some .inner) : L P lab s v = lab v := by
  rw [L, if_neg (by rw [h]; simp)]

/-- the numbers stored for the edge to a child describe its string -/
structure EdgeOk (P : List UInt8) (lab : Nat → List UInt8) (s : S) (v c : Nat) : Prop where
  le : (lab v).length ≤ s.start c
  occ : L P lab s c <+: P.drop (s.start c - (lab v).length)
  leaf : s.kind c = some .leaf → s.stop c = 0 ∧ s.start c = s.suf c + (lab v).length
  inner : s.kind c = some .inner → s.stop c = s.start c - (lab v).length + (lab c).length

structure TI (P : List UInt8) (lab : Nat → List UInt8) (j : Nat) (s : S) : Prop where
  root : s.kind 0 = some .inner
  lab0 : lab 0 = []
  pos1 : s.pos1 = P.length
  fresh : ∀ v, s.last < v → s.kind v = none
  last : 1 ≤ s.last
  jle : j ≤ P.length
  suffix : s.suffix = j
  suf : ∀ v, s.kind v = some .leaf → s.suf v < j
  leaf : ∀ k, k < j → ∃ v, s.kind v = some .leaf ∧ s.suf v = k
  edge : ∀ v ch c, s.kind v = some .inner → s.kid v ch = some c → s.kind c ≠ none ∧ lab v ++ [ch] <+: L P lab s c ∧ EdgeOk P lab s v c
  comp : ∀ u v, s.kind u = some .inner → s.kind v ≠ none → u ≠ v → lab u <+: L P lab s v → ∃ ch c, s.kid u ch = some c ∧ L P lab s c <+: L P lab s v
  leafMax : ∀ l v, s.kind l = some .leaf → s.kind v ≠ none → L P lab s l <+: L P lab s v → v = l
  inj : ∀ u v, s.kind u = some .inner → s.kind v = some .inner → lab u = lab v → u = v
  branch : ∀ v, v ≠ 0 → s.kind v = some .inner → ∃ a b x y, a ≠ b ∧ s.kid v a = some x ∧ s.kid v b = some y
  leafy : ∀ v, v ≠ 0 → s.kind v ≠ none → ∃ l, s.kind l = some .leaf ∧ L P lab s v <+: L P lab s l

theorem kind_cases {s : S} {v : Nat} (h : s.kind v ≠ none) : s.kind v = some .leaf ∨ s.kind v = some .inner := by
  cases e : s.kind v with
  | none => exact absurd e h
  | some k => cases k <;> simp

/-- `z` and `w` are prefixes of one string -/
theorem prefix_total {z w x : List UInt8} (h1 : z <+: x) (h2 : w <+: x) (h : z.length ≤ w.length) : z <+: w := List.prefix_of_prefix_length_le h1 h2 h

theorem prefix_getElem? {z x : List UInt8} (h : z <+: x) {i : Nat} (hi : i < z.length) : x[i]? = z[i]? := by
  obtain ⟨t, rfl⟩ := h
  rw [List.getElem?_append_left hi]

theorem snoc_prefix {z x : List UInt8} {a : UInt8} : z ++ [a] <+: x ↔ z <+: x ∧ x[z.length]? = some a := by
  constructor
  · rintro ⟨t, rfl⟩
    exact ⟨⟨a :: t, by simp⟩, by simp⟩
  · rintro ⟨⟨t, rfl⟩, h⟩
    cases t with
    | nil => simp at h
    | cons b t => 
      simp at h
      exact ⟨t, by simp [h]⟩

namespace TI

variable {P : List UInt8} {lab : Nat → List UInt8} {j : Nat} {s : S}

theorem lab_pos (h : TI P lab j s) {v : Nat} (hv : v ≠ 0) (hk : s.kind v = some .inner) : 0 < (lab v).length := by
  refine Nat.pos_of_ne_zero fun e => hv (h.inj v 0 hk h.root ?_)
  rw [h.lab0, List.length_eq_zero_iff.1 e]

/-- the child on the way to a longer string of the tree -/
theorem child_of (h : TI P lab j s) {u v : Nat} {z : List UInt8} {a : UInt8} (hu : s.kind u = some .inner) (hv : s.kind v ≠ none)
    (hz : z <+: L P lab s v) (hp : lab u <+: z) (ha : z[(lab u).length]? = some a) : ∃ c, s.kid u a = some c ∧ L P lab s c <+: L P lab s v := by
  have hlt : (lab u).length < z.length := (List.getElem?_eq_some_iff.1 ha).1
  have hne : u ≠ v := by
    rintro rfl
    rw [L_inner hu] at hz
    have := hz.length_le
    omega
  obtain ⟨ch, c, h1, h2⟩ := h.comp u v hu hv hne (hp.trans hz)
  have h3 := (snoc_prefix.1 ((h.edge u ch c hu h1).2.1.trans h2)).2
  rw [prefix_getElem? hz hlt, ha] at h3
  cases h3
  exact ⟨c, h1, h2⟩

/-- the children of a node are longer -/
theorem kid_longer (h : TI P lab j s) {u c : Nat} {a : UInt8} (hu : s.kind u = some .inner) (hc : s.kid u a = some c) :
    (lab u).length < (L P lab s c).length := by
  have := (h.edge u a c hu hc).2.1.length_le
  simp at this
  omega

theorem kid_ne (h : TI P lab j s) {u c : Nat} {a : UInt8} (hu : s.kind u = some .inner) (hc : s.kid u a = some c) : c ≠ 0 := by
  rintro rfl
  have := h.kid_longer hu hc
  rw [L_inner h.root, h.lab0] at this
  simp at this

theorem edgeLength_eq (h : TI P lab j s) {u c : Nat} {a : UInt8} (hu : s.kind u = some .inner) (hc : s.kid u a = some c) :
    edgeLength s c + (lab u).length = (L P lab s c).length := by
  have hl := h.kid_longer hu hc
  obtain ⟨hk, -, he⟩ := h.edge u a c hu hc
  have h0 := h.kid_ne hu hc
  rw [edgeLength, if_neg h0]
  rcases kind_cases hk with hk | hk
  · obtain ⟨h1, h2⟩ := he.leaf hk
    have h3 := h.suf c hk
    have h4 := h.jle
    rw [L_leaf hk, List.length_drop] at hl ⊢
    rw [if_pos h1, h.pos1, h2]
    omega
  · have h1 := he.inner hk
    rw [L_inner hk] at hl ⊢
    have h2 := he.le
    rw [if_neg (by omega), h1]
    omega

theorem parent_unique' (h : TI P lab j s) {u v c : Nat} {a b : UInt8} (hu : s.kind u = some .inner) (hv : s.kind v = some .inner)
    (h1 : s.kid u a = some c) (h2 : s.kid v b = some c) (hl : (lab u).length ≤ (lab v).length) : u = v ∧ a = b := by
  have e1 := (h.edge u a c hu h1).2.1
  have e2 := (h.edge v b c hv h2).2.1
  have p1 : lab u <+: L P lab s c := (List.prefix_append ..).trans e1
  have p2 : lab v <+: L P lab s c := (List.prefix_append ..).trans e2
  have p3 := prefix_total p1 p2 hl
  have key : u = v := by
    refine Classical.byContradiction fun hne => ?_
    have hck := (h.edge u a c hu h1).1
    obtain ⟨ch, d, hd, hd2⟩ := h.comp u v hu (by rw [hv]; simp) hne (by rwa [L_inner hv])
    rw [L_inner hv] at hd2
    have h3 := (snoc_prefix.1 ((h.edge u ch d hu hd).2.1.trans (hd2.trans p2))).2
    rw [(snoc_prefix.1 e1).2] at h3
    cases h3
    rw [h1] at hd
    cases hd
    have := h.kid_longer hv h2
    have := hd2.length_le
    omega
  subst key
  refine ⟨rfl, ?_⟩
  have h3 := (snoc_prefix.1 e1).2
  rw [(snoc_prefix.1 e2).2] at h3
  cases h3
  rfl

/-- a node has one parent -/
theorem parent_unique (h : TI P lab j s) {u v c : Nat} {a b : UInt8} (hu : s.kind u = some .inner) (hv : s.kind v = some .inner)
    (h1 : s.kid u a = some c) (h2 : s.kid v b = some c) : u = v ∧ a = b := by
  rcases Nat.le_total (lab u).length (lab v).length with hl | hl
  · exact h.parent_unique' hu hv h1 h2 hl
  · exact (h.parent_unique' hv hu h2 h1 hl).imp Eq.symm Eq.symm

end TI

/-! ## a new character -/

theorem L_grow {P : List UInt8} {lab : Nat → List UInt8} {j : Nat} {s : S} (h : TI P lab j s) (c : UInt8) (v : Nat) :
    (s.kind v = some .leaf ∧ L (P ++ [c]) lab (begin s) v = L P lab s v ++ [c]) ∨ (s.kind v ≠ some .leaf ∧ L (P ++ [c]) lab (begin s) v = L P lab s v) := by
  by_cases e : s.kind v = some .leaf
  · refine Or.inl ⟨e, ?_⟩
    rw [L_leaf e, L_leaf (s := begin s) e]
    have := h.suf v e
    have := h.jle
    simp only [begin]
    rw [List.drop_append_of_le_length (by omega)]
  · exact Or.inr ⟨e, by rw [L, if_neg (by exact e), L, if_neg e]⟩

theorem L_grow_prefix {P : List UInt8} {lab : Nat → List UInt8} {j : Nat} {s : S} (h : TI P lab j s) (c : UInt8) (v : Nat) :
    L P lab s v <+: L (P ++ [c]) lab (begin s) v := by
  rcases L_grow h c v with ⟨-, e⟩ | ⟨-, e⟩ <;> rw [e]
  · exact List.prefix_append ..
  · exact List.prefix_refl _

theorem prefix_snoc {z x : List UInt8} {a : UInt8} (h : z <+: x ++ [a]) : z <+: x ∨ z = x ++ [a] := by
  rcases Nat.lt_or_ge x.length z.length with hl | hl
  · exact Or.inr (h.eq_of_length (by have := h.length_le; simp at this ⊢; omega))
  · exact Or.inl (prefix_total h (List.prefix_append ..) hl)

theorem TI.grow {P : List UInt8} {lab : Nat → List UInt8} {j : Nat} {s : S} (h : TI P lab j s) (c : UInt8) : TI (P ++ [c]) lab j (begin s) where
  root := h.root
  lab0 := h.lab0
  pos1 := by simp [begin, h.pos1]
  fresh := h.fresh
  last := h.last
  jle := by have := h.jle; simp; omega
  suffix := h.suffix
  suf := h.suf
  leaf := h.leaf
  edge := by
    intro v ch d hv hd
    obtain ⟨h1, h2, h3⟩ := h.edge v ch d hv hd
    refine ⟨h1, h2.trans (L_grow_prefix h c d), ⟨h3.le, ?_, h3.leaf, h3.inner⟩⟩
    show L (P ++ [c]) lab (begin s) d <+: (P ++ [c]).drop (s.start d - (lab v).length)
    rcases L_grow h c d with ⟨e1, e2⟩ | ⟨e1, e2⟩
    · have h4 := (h3.leaf e1).2
      have h5 := h.suf d e1
      have := h.jle
      rw [e2, L_leaf e1, h4, Nat.add_sub_cancel, List.drop_append_of_le_length (by omega)]
      exact List.prefix_refl _
    · rw [e2]
      refine h3.occ.trans ?_
      have h6 := h.kid_longer hv hd
      have h7 := h3.occ.length_le
      rw [List.length_drop] at h7
      rw [List.drop_append_of_le_length (by omega)]
      exact List.prefix_append ..
  comp := by
    intro u v hu hv hne hp
    have key : lab u <+: L P lab s v := by
      rcases L_grow h c v with ⟨e1, e2⟩ | ⟨e1, e2⟩
      · rw [e2] at hp
        rcases prefix_snoc hp with hp | hp
        · exact hp
        · exfalso
          have hu0 : u ≠ 0 := by
            rintro rfl
            rw [h.lab0] at hp
            have := congrArg List.length hp
            simp at this
          obtain ⟨l, hl1, hl2⟩ := h.leafy u hu0 (by rw [show s.kind u = _ from hu]; simp)
          rw [L_inner (s := s) hu, hp] at hl2
          have := h.leafMax v l e1 (by rw [hl1]; simp) ((List.prefix_append ..).trans hl2)
          subst this
          have := hl2.length_le
          simp at this
          omega
      · rwa [e2] at hp
    obtain ⟨ch, d, hd1, hd2⟩ := h.comp u v hu hv hne key
    refine ⟨ch, d, hd1, ?_⟩
    rcases L_grow h c d with ⟨e1, e2⟩ | ⟨e1, e2⟩
    · have := h.leafMax d v e1 hv hd2
      subst this
      exact List.prefix_refl _
    · rw [e2]
      exact hd2.trans (L_grow_prefix h c v)
  leafMax := by
    intro l v hl hv hp
    refine h.leafMax l v hl hv ?_
    rcases L_grow h c l with ⟨e1, e2⟩ | ⟨e1, -⟩
    · rw [e2] at hp
      rcases L_grow h c v with ⟨e3, e4⟩ | ⟨e3, e4⟩
      · rw [e4] at hp
        rcases prefix_snoc hp with hp | hp
        · exact (List.prefix_append ..).trans hp
        · rw [(List.append_inj_left' hp rfl)]; exact List.prefix_refl _
      · rw [e4] at hp
        exact (List.prefix_append ..).trans hp
    · exact absurd hl e1
  inj := h.inj
  branch := h.branch
  leafy := by
    intro v h0 hv
    obtain ⟨l, h1, h2⟩ := h.leafy v h0 hv
    refine ⟨l, h1, ?_⟩
    rcases L_grow h c v with ⟨e3, e4⟩ | ⟨e3, e4⟩
    · have := h.leafMax v l e3 (by rw [h1]; simp) h2
      subst this
      exact List.prefix_refl _
    · rw [e4]
      exact h2.trans (L_grow_prefix h c l)

end Ukk
end Tdc
