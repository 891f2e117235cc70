import Verif.Lemmas.UkkonenStep

/-!
# The active point and the suffix links
-/

namespace Tdc
namespace Ukk

theorem bind_ok {α β : Type} (a : α) (f : α → Res β) : Except.bind (Except.ok a : Res α) f = f a := rfl

/-- the suffix link of `v` (the root if there is none) leads to the string without its first character -/
def LinkOk (lab : Nat → List UInt8) (s : S) (v : Nat) : Prop :=
  s.kind ((s.link v).getD 0) = some .inner ∧ lab ((s.link v).getD 0) = (lab v).tail

/-- the active point is `w` -/
structure Active (w : List UInt8) (lab : Nat → List UInt8) (s : S) : Prop where
  an : s.kind s.an = some .inner
  pre : lab s.an <+: w
  al : (lab s.an).length + s.al = w.length
  ae : 0 < s.al → w[(lab s.an).length]? = some s.ae

/-- `w` is in the tree -/
def InTree (P : List UInt8) (lab : Nat → List UInt8) (s : S) (w : List UInt8) : Prop := w = [] ∨ ∃ l, s.kind l = some .leaf ∧ w <+: L P lab s l

/-- between two characters -/
structure Done (P : List UInt8) (lab : Nat → List UInt8) (j : Nat) (s : S) : Prop where
  ti : TI P lab j s
  act : Active (P.drop j) lab s
  inTree : InTree P lab s (P.drop j)
  rem : s.remainder = P.length - j
  links : ∀ v, v ≠ 0 → s.kind v = some .inner → LinkOk lab s v
  link0 : s.link 0 = none

/-- before an iteration for the character `c` behind `P` -/
structure Mid (P : List UInt8) (c : UInt8) (lab : Nat → List UInt8) (j : Nat) (s : S) : Prop where
  ti : TI (P ++ [c]) lab j s
  jle : j ≤ P.length
  act : Active (P.drop j) lab s
  inTree : InTree (P ++ [c]) lab s (P.drop j)
  rem : s.remainder = P.length + 1 - j
  links : ∀ v, v ≠ 0 → v ≠ s.sl → s.kind v = some .inner → LinkOk lab s v
  link0 : s.link 0 = none
  sl : s.sl ≠ 0 → s.kind s.sl = some .inner ∧ 0 < j ∧ lab s.sl = P.drop (j - 1)

theorem Done.begin {P : List UInt8} {lab : Nat → List UInt8} {j : Nat} {s : S} (h : Done P lab j s) (c : UInt8) : Mid P c lab j (begin s) where
  ti := h.ti.grow c
  jle := h.ti.jle
  act := ⟨h.act.an, h.act.pre, h.act.al, h.act.ae⟩
  inTree := by
    rcases h.inTree with e | ⟨l, h1, h2⟩
    · exact Or.inl e
    · exact Or.inr ⟨l, h1, h2.trans (L_grow_prefix h.ti c l)⟩
  rem := by
    have := h.rem
    have := h.ti.jle
    simp only [Ukk.begin]
    omega
  links := fun v h0 _ hk => h.links v h0 hk
  link0 := h.link0
  sl := fun e => absurd rfl e

variable {P : List UInt8} {lab : Nat → List UInt8} {j : Nat} {s : S} {c : UInt8} {T : List UInt8}

theorem vget_prefix {Q T : List UInt8} (h : Q <+: T) {i : Nat} {a : UInt8} (hi : Q[i]? = some a) : vget T i = .ok a := by
  have := prefix_getElem? h (List.getElem?_eq_some_iff.1 hi).1
  rw [vget, this, hi]

theorem TI.addSl (h : TI P lab j s) (v : Nat) : TI P lab j (addSl v s) :=
  ⟨h.root, h.lab0, h.pos1, h.fresh, h.last, h.jle, h.suffix, h.suf, h.leaf, fun v ch c hv hc => ⟨(h.edge v ch c hv hc).1, (h.edge v ch c hv hc).2.1,
    ⟨(h.edge v ch c hv hc).2.2.le, (h.edge v ch c hv hc).2.2.occ, (h.edge v ch c hv hc).2.2.leaf, (h.edge v ch c hv hc).2.2.inner⟩⟩, h.comp, h.leafMax,
    h.inj, h.branch, h.leafy⟩

/-- changes of the active point do not matter for the tree -/
theorem TI.active (h : TI P lab j s) (r an : Nat) (ae : UInt8) (al : Nat) : TI P lab j { s with remainder := r, an := an, ae := ae, al := al } :=
  ⟨h.root, h.lab0, h.pos1, h.fresh, h.last, h.jle, h.suffix, h.suf, h.leaf, fun v ch c hv hc => ⟨(h.edge v ch c hv hc).1, (h.edge v ch c hv hc).2.1,
    ⟨(h.edge v ch c hv hc).2.2.le, (h.edge v ch c hv hc).2.2.occ, (h.edge v ch c hv hc).2.2.leaf, (h.edge v ch c hv hc).2.2.inner⟩⟩, h.comp, h.leafMax,
    h.inj, h.branch, h.leafy⟩

theorem drop_succ (P : List UInt8) (j : Nat) : P.drop (j + 1) = (P.drop j).tail := by rw [List.tail_drop]

theorem prefix_tail {z x : List UInt8} (h : z <+: x) : z.tail <+: x.tail := by
  obtain ⟨t, rfl⟩ := h
  cases z with
  | nil => exact List.nil_prefix
  | cons a z => exact ⟨t, rfl⟩

/-- the next suffix is in the tree, too -/
theorem inTree_tail {lab' : Nat → List UInt8} {s' : S} (h : TI (P ++ [c]) lab j s) (hi : InTree (P ++ [c]) lab s (P.drop j)) (h' : TI (P ++ [c]) lab' (j + 1) s') :
    InTree (P ++ [c]) lab' s' (P.drop (j + 1)) := by
  rcases hi with e | ⟨l, hl1, hl2⟩
  · left
    rw [drop_succ, e]
    rfl
  · right
    rw [L_leaf hl1] at hl2
    have hk := h.suf l hl1
    obtain ⟨l', h1, h2⟩ := h'.leaf (s.suf l + 1) (by omega)
    refine ⟨l', h1, ?_⟩
    rw [L_leaf h1, h2, drop_succ, drop_succ]
    exact prefix_tail hl2

/-- going on with the next suffix -/
theorem nextSuffix_ok (hT : P ++ [c] <+: T) (ht : TI (P ++ [c]) lab (j + 1) s) (hj : j ≤ P.length) (ha : Active (P.drop j) lab s)
    (hr : s.remainder = P.length + 1 - j) (hi : InTree (P ++ [c]) lab s (P.drop (j + 1)))
    (hl : ∀ v, v ≠ 0 → v ≠ s.sl → s.kind v = some .inner → LinkOk lab s v) (hla : s.an ≠ 0 → LinkOk lab s s.an) (hl0 : s.link 0 = none)
    (hs : s.sl ≠ 0 → s.kind s.sl = some .inner ∧ lab s.sl = P.drop j) :
    ∃ s', nextSuffix T s = .ok s' ∧ s'.remainder + s'.al < s.remainder + s.al ∧
      (Mid P c lab (j + 1) s' ∨ (j = P.length ∧ Done (P ++ [c]) lab (j + 1) s')) := by
  have hal := ha.al
  rw [List.length_drop] at hal
  by_cases hlast : j = P.length
  · -- the empty suffix
    have hd : P.drop j = [] := by rw [List.drop_eq_nil_iff]; omega
    have han : s.an = 0 := ht.inj _ _ ha.an ht.root (by
      rw [ht.lab0]
      have := ha.pre.length_le
      rw [hd] at this
      exact List.length_eq_zero_iff.1 (by simpa using this))
    have hal0 : s.al = 0 := by omega
    have hdn : (P ++ [c]).drop (j + 1) = [] := by rw [List.drop_eq_nil_iff]; simp; omega
    refine ⟨_, by rw [nextSuffix, if_neg (by omega)], ?_, Or.inr ⟨hlast, ?_⟩⟩
    · show s.remainder - 1 + s.al < _
      omega
    · refine ⟨?_, ⟨?_, ?_, ?_, ?_⟩, Or.inl hdn, ?_, ?_, hl0⟩
      · exact ht.active (s.remainder - 1) ((s.link s.an).getD 0) s.ae s.al
      · show s.kind ((s.link s.an).getD 0) = _
        rw [han, hl0]
        exact ht.root
      · show lab ((s.link s.an).getD 0) <+: _
        rw [han, hl0]
        simp only [Option.getD_none]
        rw [ht.lab0]
        exact List.nil_prefix
      · show (lab ((s.link s.an).getD 0)).length + s.al = _
        rw [han, hl0, hdn]
        simp only [Option.getD_none]
        rw [ht.lab0, hal0]
        rfl
      · show 0 < s.al → _
        omega
      · show s.remainder - 1 = _
        simp
        omega
      · intro v h0 hv
        refine hl v h0 (fun e => ?_) hv
        have := hs (e ▸ h0)
        rw [hd] at this
        exact h0 (ht.inj v 0 hv ht.root (by rw [ht.lab0, e, this.2]))
  · have hj' : j + 1 ≤ P.length := by omega
    have hslm : s.sl ≠ 0 → s.kind s.sl = some .inner ∧ 0 < j + 1 ∧ lab s.sl = P.drop (j + 1 - 1) := fun e => ⟨(hs e).1, by omega, (hs e).2⟩
    by_cases h0 : s.an = 0
    · have hal0 : (lab s.an).length = 0 := by rw [h0, ht.lab0]; rfl
      have hr1 : s.pos1 - (s.remainder - 1) = j + 1 := by
        rw [ht.pos1, hr]
        simp
        omega
      obtain ⟨e, he⟩ : ∃ e, (P ++ [c])[j + 1]? = some e := ⟨_, List.getElem?_eq_getElem (by simp; omega)⟩
      refine ⟨_, by rw [nextSuffix, if_pos ⟨h0, by omega⟩, hr1, vget_prefix hT he, bind_ok], ?_, Or.inl ?_⟩
      · show s.remainder - 1 + (s.al - 1) < _
        omega
      · refine ⟨ht.active (s.remainder - 1) s.an e (s.al - 1), hj', ⟨ha.an, ?_, ?_, ?_⟩, hi, ?_, hl, hl0, hslm⟩
        · show lab s.an <+: _
          rw [h0, ht.lab0]
          exact List.nil_prefix
        · show (lab s.an).length + (s.al - 1) = _
          rw [List.length_drop]
          omega
        · intro hp
          have hp' : 0 < s.al - 1 := hp
          show (P.drop (j + 1))[(lab s.an).length]? = some e
          rw [hal0, List.getElem?_drop, Nat.add_zero, ← he, List.getElem?_append_left (by omega)]
        · show s.remainder - 1 = _
          omega
    · obtain ⟨l1, l2⟩ := hla h0
      have hpos := ht.lab_pos h0 ha.an
      refine ⟨_, by rw [nextSuffix, if_neg (by omega)], ?_, Or.inl ?_⟩
      · show s.remainder - 1 + s.al < _
        omega
      · refine ⟨ht.active (s.remainder - 1) ((s.link s.an).getD 0) s.ae s.al, hj', ⟨l1, ?_, ?_, ?_⟩, hi, ?_, hl, hl0, hslm⟩
        · show lab ((s.link s.an).getD 0) <+: _
          rw [l2, drop_succ]
          exact prefix_tail ha.pre
        · show (lab ((s.link s.an).getD 0)).length + s.al = _
          rw [l2, List.length_drop, List.length_tail]
          omega
        · intro hp
          show (P.drop (j + 1))[(lab ((s.link s.an).getD 0)).length]? = some s.ae
          rw [l2, List.length_tail, List.getElem?_drop, ← ha.ae hp, List.getElem?_drop]
          congr 1
          omega
        · show s.remainder - 1 = _
          omega

theorem setEdge_ok (h : Mid P c lab j s) : Mid P c lab j (setEdge c s) ∧ ((setEdge c s).al = 0 → (setEdge c s).ae = c) ∧ (setEdge c s).al = s.al ∧
    (setEdge c s).remainder = s.remainder := by
  rw [setEdge]
  by_cases e : s.al = 0
  · rw [if_pos e]
    exact ⟨⟨h.ti.active s.remainder s.an c s.al, h.jle, ⟨h.act.an, h.act.pre, h.act.al, fun hp => absurd hp (by show ¬ 0 < s.al; omega)⟩, h.inTree, h.rem, h.links,
      h.link0, h.sl⟩, fun _ => rfl, rfl, rfl⟩
  · rw [if_neg e]
    exact ⟨h, fun e' => absurd e' e, rfl, rfl⟩

/-- the links after a node with the string of the active point is known -/
theorem addSl_links {x : Nat} (hj : j ≤ P.length) (hx : s.kind x = some .inner) (hlx : lab x = P.drop j)
    (hl : ∀ v, v ≠ 0 → v ≠ s.sl → v ≠ x → s.kind v = some .inner → LinkOk lab s v) (hs : s.sl ≠ 0 → s.kind s.sl = some .inner ∧ 0 < j ∧ lab s.sl = P.drop (j - 1)) :
    ∀ v, v ≠ 0 → v ≠ x → s.kind v = some .inner → LinkOk lab (addSl x s) v := by
  intro v h0 hvx hv
  by_cases e : v = s.sl
  · have h1 := hs (e ▸ h0)
    have : (addSl x s).link v = some x := by
      show (if s.sl = 0 then s.link else upd s.link s.sl (some x)) v = _
      rw [if_neg (e ▸ h0), e, upd_self]
    refine ⟨?_, ?_⟩
    · rw [this]
      exact hx
    · rw [this, e, h1.2.2]
      show lab x = _
      rw [hlx, ← drop_succ]
      congr 1
      omega
  · have : (addSl x s).link v = s.link v := by
      show (if s.sl = 0 then s.link else upd s.link s.sl (some x)) v = _
      split
      · rfl
      · rw [upd_ne _ _ e]
    have := hl v h0 e hvx hv
    unfold LinkOk
    rw [‹(addSl x s).link v = s.link v›]
    exact this

theorem addSl_link0 {x : Nat} (h0 : s.link 0 = none) : (addSl x s).link 0 = none := by
  show (if s.sl = 0 then s.link else upd s.link s.sl (some x)) 0 = _
  split
  · exact h0
  · rw [upd_ne _ _ (fun e => ‹¬ s.sl = 0› e.symm)]
    exact h0

theorem addSl_link_ne {x v : Nat} (h : v = 0 ∨ v ≠ s.sl) : (addSl x s).link v = s.link v := by
  show (if s.sl = 0 then s.link else upd s.link s.sl (some x)) v = _
  split
  · rfl
  · rename_i hn
    rw [upd_ne]
    rintro rfl
    rcases h with h | h
    · exact hn h
    · exact h rfl

/-- the outcome of an iteration -/
def Outcome (P : List UInt8) (c : UInt8) (j : Nat) (s : S) (r : Bool × S) : Prop :=
  (r.1 = false ∧ ∃ lab, Done (P ++ [c]) lab j r.2) ∨
  (r.1 = true ∧ r.2.remainder + r.2.al < s.remainder + s.al ∧
    ((∃ lab j, Mid P c lab j r.2) ∨ ∃ lab, j = P.length ∧ Done (P ++ [c]) lab (j + 1) r.2))

theorem ne_sl (h : Mid P c lab j s) (h0 : s.an ≠ 0) : s.an ≠ s.sl := by
  intro e
  obtain ⟨-, h1, h2⟩ := h.sl (e ▸ h0)
  rw [← e] at h2
  have h3 := h.act.pre.length_le
  rw [h2, List.length_drop, List.length_drop] at h3
  have := h.jle
  omega

theorem leaf_step (hT : P ++ [c] <+: T) (h : Mid P c lab j s) (hc : s.al = 0 → s.ae = c) (hno : s.kid s.an s.ae = none) :
    ∃ s', nextSuffix T (addSl s.an (addLeaf s)) = .ok s' ∧ Outcome P c j s (true, s') := by
  have hal : s.al = 0 := by
    refine Nat.eq_zero_of_not_pos fun hp => ?_
    rcases h.inTree with e | ⟨l, hl1, hl2⟩
    · have := h.act.al
      rw [e] at this
      simp at this
      omega
    · obtain ⟨x, hx, -⟩ := h.ti.child_of h.act.an (leaf_ne hl1) hl2 h.act.pre (h.act.ae hp)
      rw [hno] at hx
      cases hx
  have hae := hc hal
  have hlab : lab s.an = P.drop j := h.act.pre.eq_of_length (by have := h.act.al; omega)
  have ht := h.ti.addLeaf h.jle h.act.an hlab hae (by rw [← hae]; exact hno)
  have isOld : ∀ v, s.kind v ≠ none → v ≠ s.last + 1 := fun v hv e => by have := h.ti.old hv; omega
  have kindI : ∀ v, (addLeaf s).kind v = some .inner ↔ s.kind v = some .inner := by
    intro v
    by_cases e : v = s.last + 1
    · subst e
      rw [addLeaf_kind_new, h.ti.fresh _ (by omega)]
      simp
    · rw [addLeaf_kind e]
  have linkI : ∀ v, LinkOk lab s v → LinkOk lab (addLeaf s) v := fun v hv => ⟨(kindI _).2 hv.1, hv.2⟩
  have hlinks := addSl_links (s := addLeaf s) (x := s.an) h.jle ((kindI _).2 h.act.an) hlab
    (fun v h0 hv _ hk => linkI v (h.links v h0 hv ((kindI v).1 hk))) (fun e => ⟨(kindI _).2 (h.sl e).1, (h.sl e).2⟩)
  have hla : s.an ≠ 0 → LinkOk lab (addSl s.an (addLeaf s)) s.an := by
    intro h0'
    have hn := ne_sl h h0'
    have := linkI s.an (h.links s.an h0' hn h.act.an)
    unfold LinkOk at this ⊢
    rw [addSl_link_ne (s := addLeaf s) (Or.inr hn)]
    exact this
  obtain ⟨s', h1, h2, h3⟩ := nextSuffix_ok (s := addSl s.an (addLeaf s)) hT (ht.addSl _) h.jle
    ⟨(kindI _).2 h.act.an, h.act.pre, h.act.al, h.act.ae⟩ h.rem (inTree_tail h.ti h.inTree (ht.addSl _))
    (fun v h0 hv hk => hlinks v h0 hv hk)
    hla (addSl_link0 h.link0) (fun _ => ⟨(kindI _).2 h.act.an, hlab⟩)
  refine ⟨s', h1, Or.inr ⟨rfl, h2, ?_⟩⟩
  rcases h3 with h3 | h3
  · exact Or.inl ⟨_, _, h3⟩
  · exact Or.inr ⟨_, h3⟩

theorem split_step {d : UInt8} {next : Nat} (hT : P ++ [c] <+: T) (h : Mid P c lab j s) (h0 : 0 < s.al) (hnx : s.kid s.an s.ae = some next)
    (hwn : P.drop j ++ [d] <+: L (P ++ [c]) lab s next) (hdc : d ≠ c) :
    ∃ s', nextSuffix T (addSl (s.last + 1) (splitEdge c d next s)) = .ok s' ∧ Outcome P c j s (true, s') := by
  have ht := h.ti.split h.jle h.act.an hnx h.act.pre h.act.al h0 hwn hdc
  have isOld : ∀ v, s.kind v ≠ none → v ≠ s.last + 1 ∧ v ≠ s.last + 2 := fun v hv => by have := h.ti.old hv; omega
  have kindO : ∀ v, s.kind v = some .inner → (splitEdge c d next s).kind v = some .inner := by
    intro v hv
    rw [split_kind (isOld v (inner_ne hv)).1 (isOld v (inner_ne hv)).2]
    exact hv
  have labO : ∀ v, s.kind v = some .inner → upd lab (s.last + 1) (P.drop j) v = lab v := fun v hv => upd_ne _ _ (isOld v (inner_ne hv)).1
  have kindB : ∀ v, v ≠ s.last + 1 → (splitEdge c d next s).kind v = some .inner → s.kind v = some .inner := by
    intro v h1 hv
    by_cases e : v = s.last + 2
    · subst e
      rw [split_kind_leaf] at hv
      cases hv
    · rwa [split_kind h1 e] at hv
  have linkO : ∀ v, s.kind v = some .inner → LinkOk lab s v → LinkOk (upd lab (s.last + 1) (P.drop j)) (splitEdge c d next s) v := by
    intro v hv hl
    have : (splitEdge c d next s).link v = s.link v := upd_ne _ _ (isOld v (inner_ne hv)).1
    unfold LinkOk
    rw [this, labO v hv, labO _ hl.1]
    exact ⟨kindO _ hl.1, hl.2⟩
  have hlinks := addSl_links (s := splitEdge c d next s) (lab := upd lab (s.last + 1) (P.drop j)) (x := s.last + 1) h.jle split_kind_mid (upd_self ..)
    (fun v h0 hv hx hk => linkO v (kindB v hx hk) (h.links v h0 hv (kindB v hx hk)))
    (fun e => ⟨kindO _ (h.sl e).1, (h.sl e).2.1, by
      have : (splitEdge c d next s).sl = s.sl := rfl
      rw [this, labO _ (h.sl e).1]
      exact (h.sl e).2.2⟩)
  have hlan := labO s.an h.act.an
  have hla : s.an ≠ 0 → LinkOk (upd lab (s.last + 1) (P.drop j)) (addSl (s.last + 1) (splitEdge c d next s)) s.an := by
    intro h0'
    have hn := ne_sl h h0'
    have := linkO s.an h.act.an (h.links s.an h0' hn h.act.an)
    unfold LinkOk at this ⊢
    rw [addSl_link_ne (s := splitEdge c d next s) (Or.inr hn)]
    exact this
  have hl0 : (splitEdge c d next s).link 0 = none := by
    show upd s.link (s.last + 1) none 0 = none
    rw [upd_ne _ _ (by omega)]
    exact h.link0
  obtain ⟨s', h1, h2, h3⟩ := nextSuffix_ok (s := addSl (s.last + 1) (splitEdge c d next s)) hT (ht.addSl _) h.jle
    ⟨kindO _ h.act.an, by
      show upd lab (s.last + 1) (P.drop j) s.an <+: _
      rw [hlan]; exact h.act.pre, by
      show (upd lab (s.last + 1) (P.drop j) s.an).length + s.al = _
      rw [hlan]; exact h.act.al, by
      show 0 < s.al → (P.drop j)[(upd lab (s.last + 1) (P.drop j) s.an).length]? = some s.ae
      rw [hlan]; exact h.act.ae⟩ h.rem (inTree_tail h.ti h.inTree (ht.addSl _))
    (fun v h0 hv hk => hlinks v h0 hv hk)
    hla (addSl_link0 hl0) (fun _ => ⟨split_kind_mid (c := c) (d := d) (next := next), upd_self ..⟩)
  refine ⟨s', h1, Or.inr ⟨rfl, h2, ?_⟩⟩
  rcases h3 with h3 | h3
  · exact Or.inl ⟨_, _, h3⟩
  · exact Or.inr ⟨_, h3⟩

/-- a node waiting for its suffix link is resolved by a node -/
theorem pending {next : Nat} (h : Mid P c lab j s) (hnx : s.kid s.an s.ae = some next) (hwn : P.drop j ++ [c] <+: L (P ++ [c]) lab s next) (hs : s.sl ≠ 0) :
    s.al = 0 := by
  refine Nat.eq_zero_of_not_pos fun hp => ?_
  obtain ⟨h1, h2, h3⟩ := h.sl hs
  obtain ⟨a, b, x, y, hab, hx, hy⟩ := h.ti.branch s.sl hs h1
  have hjl := h.jle
  have key : ∀ (e : UInt8) (x : Nat), s.kid s.sl e = some x → e = c := by
    intro e x hx
    obtain ⟨k1, k2, -⟩ := h.ti.edge s.sl e x h1 hx
    obtain ⟨l, l1, l2⟩ := h.ti.leafy x (h.ti.kid_ne h1 hx) k1
    have hk := h.ti.suf l l1
    rw [L_leaf l1] at l2
    have l3 := prefix_tail (k2.trans l2)
    rw [h3, ← drop_succ, List.tail_append_of_ne_nil (by
      intro e
      have := congrArg List.length e
      simp at this
      omega), ← drop_succ, show j - 1 + 1 = j by omega] at l3
    by_cases hk2 : s.suf l + 1 = j
    · rw [hk2, List.drop_append_of_le_length hjl] at l3
      have := l3.eq_of_length (by simp)
      simpa using this
    · obtain ⟨l', m1, m2⟩ := h.ti.leaf (s.suf l + 1) (by omega)
      rw [← m2, ← L_leaf (P := P ++ [c]) (lab := lab) m1] at l3
      obtain ⟨x', n1, n2⟩ := h.ti.child_of h.act.an (leaf_ne m1) ((List.prefix_append ..).trans l3) h.act.pre (h.act.ae hp)
      rw [hnx] at n1
      cases n1
      have e1 := (snoc_prefix.1 (hwn.trans n2)).2
      rw [(snoc_prefix.1 l3).2] at e1
      simpa using e1
  exact hab ((key a x hx).trans (key b y hy).symm)

theorem break_step {next : Nat} (h : Mid P c lab j s) (hnx : s.kid s.an s.ae = some next) (hae : s.al = 0 → s.ae = c)
    (hwn : P.drop j ++ [c] <+: L (P ++ [c]) lab s next) : Done (P ++ [c]) lab j (addSl s.an { s with al := s.al + 1 }) := by
  have hd : (P ++ [c]).drop j = P.drop j ++ [c] := List.drop_append_of_le_length h.jle
  obtain ⟨k1, k2, -⟩ := h.ti.edge s.an s.ae next h.act.an hnx
  have h0 := h.ti.kid_ne h.act.an hnx
  refine ⟨(h.ti.active s.remainder s.an s.ae (s.al + 1)).addSl _, ⟨h.act.an, ?_, ?_, ?_⟩, ?_, ?_, ?_, ?_⟩
  · rw [hd]
    exact h.act.pre.trans (List.prefix_append ..)
  · show (lab s.an).length + (s.al + 1) = _
    rw [hd, List.length_append, ← h.act.al]
    rfl
  · intro _
    show ((P ++ [c]).drop j)[(lab s.an).length]? = some s.ae
    rw [hd]
    have hal := h.act.al
    by_cases e : s.al = 0
    · rw [hae e, show (lab s.an).length = (P.drop j).length by omega]
      simp
    · rw [List.getElem?_append_left (by omega)]
      exact h.act.ae (by omega)
  · right
    obtain ⟨l, l1, l2⟩ := h.ti.leafy next h0 k1
    refine ⟨l, l1, ?_⟩
    rw [hd]
    exact hwn.trans l2
  · show s.remainder = _
    rw [h.rem]
    simp
  · intro v hv0 hv
    by_cases hsl : s.sl = 0
    · have hk := h.links v hv0 (by rw [hsl]; exact hv0) hv
      unfold LinkOk at hk ⊢
      rw [addSl_link_ne (by right; rw [hsl]; exact hv0)]
      exact hk
    · have hal := pending h hnx hwn hsl
      have hlab : lab s.an = P.drop j := h.act.pre.eq_of_length (by have := h.act.al; omega)
      by_cases e : v = s.an
      · subst e
        have hk := h.links s.an hv0 (ne_sl h hv0) hv
        unfold LinkOk at hk ⊢
        have hn : s.an ≠ ({ s with al := s.al + 1 } : S).sl := ne_sl h hv0
        rw [addSl_link_ne (s := { s with al := s.al + 1 }) (Or.inr hn)]
        exact hk
      · exact addSl_links (s := { s with al := s.al + 1 }) h.jle h.act.an hlab (fun v h0 hv _ hk => h.links v h0 hv hk) h.sl v hv0 e hv
  · exact addSl_link0 h.link0

theorem walk_step {next : Nat} (hT : P ++ [c] <+: T) (h : Mid P c lab j s) (hnx : s.kid s.an s.ae = some next) (hle : edgeLength s next ≤ s.al) :
    ∃ e, vget T (s.pos1 - 1 - (s.al - edgeLength s next)) = .ok e ∧
      Outcome P c j s (true, { s with an := next, al := s.al - edgeLength s next, ae := e }) := by
  have hel := h.ti.edgeLength_eq h.act.an hnx
  have hlong := h.ti.kid_longer h.act.an hnx
  have hal := h.act.al
  have hjl := h.jle
  obtain ⟨k1, k2, k3⟩ := h.ti.edge s.an s.ae next h.act.an hnx
  rw [List.length_drop] at hal
  obtain ⟨l, hl1, hl2⟩ : ∃ l, s.kind l = some .leaf ∧ P.drop j <+: L (P ++ [c]) lab s l := by
    rcases h.inTree with e | e
    · have := congrArg List.length e
      rw [List.length_drop] at this
      simp at this
      omega
    · exact e
  obtain ⟨x, hx, hx2⟩ := h.ti.child_of h.act.an (leaf_ne hl1) hl2 h.act.pre (h.act.ae (by omega))
  rw [hnx] at hx
  cases hx
  have hin : s.kind next = some .inner := by
    rcases kind_cases k1 with hk | hk
    · exfalso
      have := h.ti.suf next hk
      rw [L_leaf hk] at hel
      simp at hel
      omega
    · exact hk
  rw [L_inner hin] at hel hx2 hlong
  have hpre : lab next <+: P.drop j := prefix_total hx2 hl2 (by rw [List.length_drop]; omega)
  have hidx : s.pos1 - 1 - (s.al - edgeLength s next) = j + (lab next).length := by
    rw [h.ti.pos1]
    simp
    omega
  obtain ⟨e, he⟩ : ∃ e, (P ++ [c])[j + (lab next).length]? = some e := ⟨_, List.getElem?_eq_getElem (by simp; omega)⟩
  refine ⟨e, by rw [hidx]; exact vget_prefix hT he, Or.inr ⟨rfl, ?_, Or.inl ⟨lab, j, ?_⟩⟩⟩
  · show s.remainder + (s.al - edgeLength s next) < _
    omega
  · refine ⟨h.ti.active s.remainder next e (s.al - edgeLength s next), h.jle, ⟨hin, hpre, ?_, ?_⟩, h.inTree, h.rem, h.links, h.link0, h.sl⟩
    · show (lab next).length + (s.al - edgeLength s next) = _
      rw [List.length_drop]
      omega
    · intro hp
      have hp' : 0 < s.al - edgeLength s next := hp
      show (P.drop j)[(lab next).length]? = some e
      rw [List.getElem?_drop, ← he, List.getElem?_append_left (by omega)]

theorem body_ok (hT : P ++ [c] <+: T) (h : Mid P c lab j s) : ∃ r, body T c s = .ok r ∧ Outcome P c j s r := by
  obtain ⟨h, hae, hal, hrem⟩ := setEdge_ok h
  have tr : ∀ r, Outcome P c j (setEdge c s) r → Outcome P c j s r := by
    intro r hr
    rcases hr with hr | ⟨h1, h2, h3⟩
    · exact Or.inl hr
    · exact Or.inr ⟨h1, by rw [← hal, ← hrem]; exact h2, h3⟩
  rw [body]
  generalize setEdge c s = s' at h hae hal hrem tr
  rw [body', if_neg (by rw [h.act.an]; simp)]
  cases hnx : s'.kid s'.an s'.ae with
  | none =>
    obtain ⟨s2, h1, h2⟩ := leaf_step hT h hae hnx
    exact ⟨_, by simp only [h1, bind_ok], tr _ h2⟩
  | some next =>
    by_cases hle : edgeLength s' next ≤ s'.al
    · obtain ⟨e, h1, h2⟩ := walk_step hT h hnx hle
      exact ⟨_, by simp only [if_pos hle, h1, bind_ok], tr _ h2⟩
    · have hel := h.ti.edgeLength_eq h.act.an hnx
      obtain ⟨k1, k2, k3⟩ := h.ti.edge s'.an s'.ae next h.act.an hnx
      have hlen : (P.drop j).length < (L (P ++ [c]) lab s' next).length := by have := h.act.al; omega
      have hw : P.drop j <+: L (P ++ [c]) lab s' next := by
        by_cases e : s'.al = 0
        · have hlab : lab s'.an = P.drop j := h.act.pre.eq_of_length (by have := h.act.al; omega)
          rw [← hlab]
          exact (List.prefix_append ..).trans k2
        · rcases h.inTree with hn | ⟨l, hl1, hl2⟩
          · rw [hn]
            exact List.nil_prefix
          · obtain ⟨x, hx, hx2⟩ := h.ti.child_of h.act.an (leaf_ne hl1) hl2 h.act.pre (h.act.ae (by omega))
            rw [hnx] at hx
            cases hx
            exact prefix_total hl2 hx2 (by omega)
      obtain ⟨d, hd⟩ : ∃ d, (L (P ++ [c]) lab s' next)[(P.drop j).length]? = some d := ⟨_, List.getElem?_eq_getElem hlen⟩
      have hwd : P.drop j ++ [d] <+: L (P ++ [c]) lab s' next := snoc_prefix.2 ⟨hw, hd⟩
      have hget : vget T (s'.start next + s'.al) = .ok d := by
        refine vget_prefix hT ?_
        have := prefix_getElem? k3.occ hlen
        rw [hd, List.getElem?_drop] at this
        rw [← this]
        congr 1
        have := k3.le
        have := h.act.al
        omega
      simp only [if_neg hle, hget, bind_ok]
      by_cases hdc : d = c
      · subst hdc
        rw [if_pos rfl]
        exact ⟨_, rfl, Or.inl ⟨rfl, lab, break_step h hnx hae hwd⟩⟩
      · rw [if_neg hdc]
        have h0 : 0 < s'.al := by
          refine Nat.pos_of_ne_zero fun e => hdc ?_
          have hlab : lab s'.an = P.drop j := h.act.pre.eq_of_length (by have := h.act.al; omega)
          have := (snoc_prefix.1 k2).2
          rw [hlab, hd] at this
          cases this
          exact hae e
        obtain ⟨s2, h1, h2⟩ := split_step hT h h0 hnx hwd hdc
        exact ⟨_, by simp only [h1, bind_ok], tr _ h2⟩

theorem loop_ok (hT : P ++ [c] <+: T) : ∀ (fuel : Nat) (s : S) (lab : Nat → List UInt8) (j : Nat), Mid P c lab j s → s.remainder + s.al < fuel →
    ∃ s' lab' j', loop T c fuel s = .ok s' ∧ Done (P ++ [c]) lab' j' s'
  | 0, _, _, _, _, hf => absurd hf (by omega)
  | fuel + 1, s, lab, j, h, hf => by
    have hr : s.remainder ≠ 0 := by have := h.rem; have := h.jle; omega
    obtain ⟨r, h1, h2⟩ := body_ok hT h
    rw [loop, if_neg hr, h1, bind_ok]
    rcases h2 with ⟨e, lab', hd⟩ | ⟨e, hlt, hd⟩
    · rw [e, if_neg (by simp)]
      exact ⟨_, lab', j, rfl, hd⟩
    · rw [e, if_pos rfl]
      rcases hd with ⟨lab', j', hm⟩ | ⟨lab', hj, hd⟩
      · exact loop_ok hT fuel _ _ _ hm (by omega)
      · have h0 : r.2.remainder = 0 := by rw [hd.rem]; simp; omega
        cases fuel with
        | zero => omega
        | succ f => exact ⟨_, _, _, by rw [loop, if_pos h0], hd⟩

theorem addChar_ok (hT : P ++ [c] <+: T) (h : Done P lab j s) : ∃ s' lab' j', addChar T c s = .ok s' ∧ Done (P ++ [c]) lab' j' s' :=
  loop_ok hT _ _ lab j (h.begin c) (by show s.remainder + 1 + s.al < _; omega)

theorem addChars_ok : ∀ (x : List UInt8) (P : List UInt8) (s : S) (lab : Nat → List UInt8) (j : Nat), P ++ x <+: T → Done P lab j s →
    ∃ s' lab' j', addChars T x s = .ok s' ∧ Done (P ++ x) lab' j' s'
  | [], P, s, lab, j, _, h => ⟨s, lab, j, rfl, by rwa [List.append_nil]⟩
  | c :: x, P, s, lab, j, hT, h => by
    have hT' : (P ++ [c]) ++ x <+: T := by simpa using hT
    obtain ⟨s1, lab1, j1, h1, h2⟩ := addChar_ok ((List.prefix_append ..).trans hT') h
    obtain ⟨s2, lab2, j2, h3, h4⟩ := addChars_ok x (P ++ [c]) s1 lab1 j1 hT' h2
    exact ⟨s2, lab2, j2, by rw [addChars, h1, bind_ok, h3], by simpa using h4⟩

theorem init_kind {v : Nat} : init.kind v = if v = 0 then some .inner else none := rfl

theorem init_done : Done [] (fun _ => []) 0 init where
  ti := {
    root := rfl
    lab0 := rfl
    pos1 := rfl
    fresh := fun v hv => by rw [init_kind, if_neg (by have : 1 < v := hv; omega)]
    last := Nat.le_refl 1
    jle := Nat.le_refl 0
    suffix := rfl
    suf := fun v hv => by rw [init_kind] at hv; split at hv <;> cases hv
    leaf := fun k hk => absurd hk (by omega)
    edge := fun v ch c _ hc => by cases hc
    comp := fun u v hu hv hne _ => by
      rw [init_kind] at hu hv
      by_cases e : v = 0
      · by_cases e' : u = 0
        · omega
        · rw [if_neg e'] at hu
          cases hu
      · rw [if_neg e] at hv
        exact absurd rfl hv
    leafMax := fun l v hl => by rw [init_kind] at hl; split at hl <;> cases hl
    inj := fun u v hu hv _ => by
      rw [init_kind] at hu hv
      by_cases e : v = 0
      · by_cases e' : u = 0
        · omega
        · rw [if_neg e'] at hu
          cases hu
      · rw [if_neg e] at hv
        cases hv
    branch := fun v h0 hv => by rw [init_kind, if_neg h0] at hv; cases hv
    leafy := fun v h0 hv => by rw [init_kind, if_neg h0] at hv; exact absurd rfl hv }
  act := ⟨rfl, List.nil_prefix, rfl, fun h => absurd h (Nat.lt_irrefl 0)⟩
  inTree := Or.inl rfl
  rem := rfl
  links := fun v h0 hv => by rw [init_kind, if_neg h0] at hv; cases hv
  link0 := rfl

theorem append_ok (x : List UInt8) (o : Obj) (h : Done o.text lab j o.s) : ∃ o' lab' j', append x o = .ok o' ∧ o'.text = o.text ++ x ∧ Done o'.text lab' j' o'.s := by
  obtain ⟨s', lab', j', h1, h2⟩ := addChars_ok (T := o.text ++ x) x o.text o.s lab j (List.prefix_refl _) h
  exact ⟨⟨o.text ++ x, s'⟩, lab', j', by rw [append, h1, bind_ok], rfl, h2⟩

theorem appends_ok : ∀ (xs : List (List UInt8)) (o : Obj) (lab : Nat → List UInt8) (j : Nat), Done o.text lab j o.s →
    ∃ o' lab' j', appends xs o = .ok o' ∧ o'.text = o.text ++ xs.flatten ∧ Done o'.text lab' j' o'.s
  | [], o, lab, j, h => ⟨o, lab, j, rfl, by simp, h⟩
  | x :: xs, o, lab, j, h => by
    obtain ⟨o1, lab1, j1, h1, h2, h3⟩ := append_ok x o h
    obtain ⟨o2, lab2, j2, h4, h5, h6⟩ := appends_ok xs o1 lab1 j1 h3
    exact ⟨o2, lab2, j2, by rw [appends, h1, bind_ok, h4], by rw [h5, h2]; simp, h6⟩

end Ukk
end Tdc
