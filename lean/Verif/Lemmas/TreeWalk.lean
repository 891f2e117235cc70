import Verif.Model.SuffixTreeRead
import Verif.Spec.SuffixTree

/-!
# The traversal of a suffix tree
-/

namespace Tdc

/-- every node can be read, and the strings on the edges lie within the text -/
def Reader.Safe (R : Reader) (T : List UInt8) (size : Nat) : Prop :=
  ∀ v w, Spells (R.view T) v w → v < size ∧ (∃ ks, R.kids v = .ok ks) ∧ (∃ l, R.leaf v = .ok l) ∧ ∃ a l, R.start v = .ok a ∧ R.len v = .ok l ∧ (v ≠ 0 → a + l ≤ T.length)

namespace Lfs

theorem bindOk {α β : Type} (a : α) (f : α → Res β) : Except.bind (Except.ok a : Res α) f = f a := rfl

theorem each_ok {α β : Type} {f : α → Res β} : ∀ {l : List α}, (∀ a ∈ l, ∃ x, f a = .ok x) → ∃ xs, each f l = .ok xs ∧ ∀ x, x ∈ xs ↔ ∃ a ∈ l, f a = .ok x
  | [], _ => ⟨[], rfl, by simp⟩
  | a :: as, h => by
    obtain ⟨x, hx⟩ := h a (List.mem_cons_self ..)
    obtain ⟨xs, e1, e2⟩ := each_ok (f := f) (l := as) fun b hb => h b (List.mem_cons_of_mem _ hb)
    refine ⟨x :: xs, by rw [each, hx, bindOk, e1, bindOk], fun y => ?_⟩
    rw [List.mem_cons, e2]
    constructor
    · rintro (rfl | ⟨b, hb, h1⟩)
      · exact ⟨a, List.mem_cons_self .., hx⟩
      · exact ⟨b, List.mem_cons_of_mem _ hb, h1⟩
    · rintro ⟨b, hb, h1⟩
      rcases List.mem_cons.1 hb with rfl | hb
      · rw [hx] at h1
        cases h1
        exact Or.inl rfl
      · exact Or.inr ⟨b, hb, h1⟩

/-- a child -/
def kidV (V : TreeView) (c : Nat) : Kid := match V.leaf c with | some p => .leaf p | none => .node c

theorem kidV_node {V : TreeView} {c d : Nat} (h : Kid.node d = kidV V c) : d = c ∧ V.leaf c = none := by
  unfold kidV at h
  cases e : V.leaf c with
  | some p => rw [e] at h; cases h
  | none => rw [e] at h; cases h; exact ⟨rfl, rfl⟩

theorem kidV_leaf {V : TreeView} {c p : Nat} (h : Kid.leaf p = kidV V c) : V.leaf c = some p := by
  unfold kidV at h
  cases e : V.leaf c with
  | some p => rw [e] at h; cases h; rfl
  | none => rw [e] at h; cases h

/-- an entry describes a node -/
structure EntryOk (V : TreeView) (e : Nat × Inner) : Prop where
  inner : V.leaf e.1 = none
  depth : ∃ w, Spells V e.1 w ∧ e.2.depth = w.length
  kids : ∀ k, k ∈ e.2.kids ↔ ∃ c ∈ V.kids e.1, k = kidV V c

variable {R : Reader} {T : List UInt8} {size : Nat} {V : TreeView}

theorem spells_le (hI : IsImplicitSuffixTree T V) {v : Nat} {w : List UInt8} (h : Spells V v w) : w.length ≤ T.length :=
  ((hI.words w).1 ⟨v, [], by rwa [List.append_nil]⟩).length_le

theorem walk_ok (hI : IsImplicitSuffixTree T (R.view T)) (hS : R.Safe T size) : ∀ (fuel v : Nat) (w : List UInt8) (up : Nat), Spells (R.view T) v w →
    T.length < fuel + w.length → ∃ xs, walk R fuel v w.length up = .ok xs ∧ (∀ e ∈ xs, EntryOk (R.view T) e) ∧
      ((R.view T).leaf v = none → ∃ e ∈ xs, e.1 = v) ∧
      (∀ e ∈ xs, ∀ c ∈ (R.view T).kids e.1, (R.view T).leaf c = none → ∃ e' ∈ xs, e'.1 = c) ∧
      ∀ e ∈ xs, (e.1 = v ∧ e.2.up = up) ∨ ∃ e' ∈ xs, e.1 ∈ (R.view T).kids e'.1 ∧ e.2.up = e'.2.depth
  | 0, v, w, up, hs, hf => by
    have := spells_le hI hs
    omega
  | fuel + 1, v, w, up, hs, hf => by
    obtain ⟨-, ⟨ks, hk⟩, ⟨l, hl⟩, -⟩ := hS v w hs
    have hkv : (R.view T).kids v = ks := by show orElse [] (R.kids v) = ks; rw [hk]; rfl
    have hlv : (R.view T).leaf v = l := by show orElse none (R.leaf v) = l; rw [hl]; rfl
    rw [walk, hl, bindOk]
    cases l with
    | some p => exact ⟨[], rfl, (fun _ h => nomatch h), (fun h => by rw [hlv] at h; cases h), (fun _ h => nomatch h), (fun _ h => nomatch h)⟩
    | none =>
      have hkid : ∀ c ∈ ks, kidOf R c = .ok (kidV (R.view T) c) := by
        intro c hc
        obtain ⟨-, -, ⟨lc, hlc⟩, -⟩ := hS c _ (hs.step (by rw [hkv]; exact hc))
        rw [kidOf, hlc, bindOk]
        unfold kidV
        have : (R.view T).leaf c = lc := by show orElse none (R.leaf c) = lc; rw [hlc]; rfl
        rw [this]
        cases lc <;> rfl
      obtain ⟨kk, k1, k2⟩ := each_ok (f := kidOf R) (l := ks) fun c hc => ⟨_, hkid c hc⟩
      -- the children
      have hrec : ∀ c ∈ ks, ∃ xs, ((R.len c).bind fun e => walk R fuel c (w.length + e) w.length) = .ok xs ∧ (∀ e ∈ xs, EntryOk (R.view T) e) ∧
          ((R.view T).leaf c = none → ∃ e ∈ xs, e.1 = c) ∧
          (∀ e ∈ xs, ∀ c ∈ (R.view T).kids e.1, (R.view T).leaf c = none → ∃ e' ∈ xs, e'.1 = c) ∧
          ∀ e ∈ xs, (e.1 = c ∧ e.2.up = w.length) ∨ ∃ e' ∈ xs, e.1 ∈ (R.view T).kids e'.1 ∧ e.2.up = e'.2.depth := by
        intro c hc
        have hsc := hs.step (c := c) (by rw [hkv]; exact hc)
        obtain ⟨-, -, -, a, el, ha, hel, hle⟩ := hS c _ hsc
        have hne : (R.view T).edge c ≠ [] := hI.edge v w c hs (by rw [hkv]; exact hc)
        have hc0 : c ≠ 0 := by
          rintro rfl
          exact hne (List.append_eq_nil_iff.1 (hI.path 0 _ _ hsc .root)).2
        have hle := hle hc0
        have hlen : ((R.view T).edge c).length = el := by
          show ((T.drop (orElse 0 (R.start c))).take (orElse 0 (R.len c))).length = el
          rw [ha, hel]
          simp only [orElse, List.length_take, List.length_drop]
          omega
        have hpos : 0 < ((R.view T).edge c).length := List.length_pos_iff.2 hne
        have := walk_ok hI hS fuel c _ w.length hsc (by rw [List.length_append]; omega)
        rw [List.length_append, hlen] at this
        rw [hel, bindOk]
        exact this
      obtain ⟨xss, x1, x2⟩ := each_ok (f := fun c => (R.len c).bind fun e => walk R fuel c (w.length + e) w.length) (l := ks) fun c hc => by
        obtain ⟨xs, h, -⟩ := hrec c hc
        exact ⟨xs, h⟩
      have hin : ∀ xs ∈ xss, (∀ e ∈ xs, EntryOk (R.view T) e) ∧ (∀ e ∈ xs, ∀ c ∈ (R.view T).kids e.1, (R.view T).leaf c = none → ∃ e' ∈ xs, e'.1 = c) ∧
          ∀ e ∈ xs, (e.1 ∈ ks ∧ e.2.up = w.length) ∨ ∃ e' ∈ xs, e.1 ∈ (R.view T).kids e'.1 ∧ e.2.up = e'.2.depth := by
        intro xs hxs
        obtain ⟨c, hc, h⟩ := (x2 xs).1 hxs
        obtain ⟨ys, h1, h2, -, h3, h4⟩ := hrec c hc
        rw [h1] at h
        cases h
        refine ⟨h2, h3, fun e he => ?_⟩
        rcases h4 e he with ⟨q1, q2⟩ | q
        · exact Or.inl ⟨q1 ▸ hc, q2⟩
        · exact Or.inr q
      have hall : ∀ c ∈ ks, (R.view T).leaf c = none → ∃ e ∈ xss.flatten, e.1 = c := by
        intro c hc hlc
        obtain ⟨ys, h1, -, h2, -⟩ := hrec c hc
        obtain ⟨e, he, h3⟩ := h2 hlc
        exact ⟨e, List.mem_flatten.2 ⟨ys, (x2 ys).2 ⟨c, hc, h1⟩, he⟩, h3⟩
      refine ⟨(v, ⟨w.length, up, kk⟩) :: xss.flatten, ?_, ?_, ?_, ?_, ?_⟩
      · simp only [Option.isSome_none, hk, k1, x1, bindOk]
        rfl
      · intro e he
        rcases List.mem_cons.1 he with rfl | he
        · refine ⟨hlv, ⟨w, hs, rfl⟩, fun k => ?_⟩
          show k ∈ kk ↔ ∃ c ∈ (R.view T).kids v, _
          rw [k2, hkv]
          constructor
          · rintro ⟨c, hc, h⟩
            rw [hkid c hc] at h
            cases h
            exact ⟨c, hc, rfl⟩
          · rintro ⟨c, hc, rfl⟩
            exact ⟨c, hc, hkid c hc⟩
        · obtain ⟨xs, hxs, he⟩ := List.mem_flatten.1 he
          exact (hin xs hxs).1 e he
      · exact fun _ => ⟨_, List.mem_cons_self .., rfl⟩
      · intro e he c hc hlc
        rcases List.mem_cons.1 he with rfl | he
        · obtain ⟨e', h1, h2⟩ := hall c (by rw [← hkv]; exact hc) hlc
          exact ⟨e', List.mem_cons_of_mem _ h1, h2⟩
        · obtain ⟨xs, hxs, he⟩ := List.mem_flatten.1 he
          obtain ⟨e', h1, h2⟩ := (hin xs hxs).2.1 e he c hc hlc
          exact ⟨e', List.mem_cons_of_mem _ (List.mem_flatten.2 ⟨xs, hxs, h1⟩), h2⟩
      · intro e he
        rcases List.mem_cons.1 he with rfl | he
        · exact Or.inl ⟨rfl, rfl⟩
        · obtain ⟨xs, hxs, he⟩ := List.mem_flatten.1 he
          right
          rcases (hin xs hxs).2.2 e he with ⟨q1, q2⟩ | ⟨e', h1, h2⟩
          · exact ⟨_, List.mem_cons_self .., by rw [hkv]; exact q1, q2⟩
          · exact ⟨e', List.mem_cons_of_mem _ (List.mem_flatten.2 ⟨xs, hxs, h1⟩), h2⟩

/-! ## the table -/

theorem table_node {size : Nat} {xs : List (Nat × Inner)} {v : Nat} {nd : Inner} (h : (table size xs).nodes[v]? = some nd) :
    v < size ∧ ((v, nd) ∈ xs ∨ (nd = ⟨0, 0, []⟩ ∧ ∀ e ∈ xs, e.1 ≠ v)) := by
  have hv : v < size := by
    have := (List.getElem?_eq_some_iff.1 h).1
    simpa [table] using this
  refine ⟨hv, ?_⟩
  simp only [table, List.getElem?_map, List.getElem?_range hv, Option.map_some] at h
  cases e : xs.find? fun e => e.1 == v with
  | none =>
    rw [e] at h
    simp at h
    refine Or.inr ⟨h.symm, fun e' he h' => ?_⟩
    have := List.find?_eq_none.1 e e' he
    simp [h'] at this
  | some p =>
    rw [e] at h
    simp at h
    have h1 := List.find?_some e
    have h2 := List.mem_of_find?_eq_some e
    left
    simp at h1
    rw [← h1, ← h]
    exact h2

theorem table_length {size : Nat} {xs : List (Nat × Inner)} : (table size xs).nodes.length = size := by simp [table]

open Classical in
/-- the string of a node of the table -/
noncomputable def labelOf (V : TreeView) (xs : List (Nat × Inner)) (v : Nat) : List UInt8 :=
  if h : (∃ e ∈ xs, e.1 = v) ∧ ∃ w, Spells V v w then h.2.choose else []

theorem labelOf_eq (hI : IsImplicitSuffixTree T V) {xs : List (Nat × Inner)} {v : Nat} {w : List UInt8} (hx : ∃ e ∈ xs, e.1 = v) (h : Spells V v w) :
    labelOf V xs v = w := by
  unfold labelOf
  rw [dif_pos ⟨hx, w, h⟩]
  exact hI.path v _ _ (Exists.choose_spec (⟨w, h⟩ : ∃ w, Spells V v w)) h

theorem labelOf_none {xs : List (Nat × Inner)} {v : Nat} (h : ∀ e ∈ xs, e.1 ≠ v) : labelOf V xs v = [] := by
  unfold labelOf
  rw [dif_neg]
  rintro ⟨⟨e, he, h'⟩, -⟩
  exact h e he h'

/-- a child has one parent -/
theorem parent_unique (hI : IsImplicitSuffixTree T V) {u v c : Nat} {w x : List UInt8} (hu : Spells V u w) (hv : Spells V v x) (h1 : c ∈ V.kids u) (h2 : c ∈ V.kids v) :
    u = v := by
  have := hI.path c _ _ (hu.step h1) (hv.step h2)
  have := List.append_cancel_right this
  subst this
  exact hI.point u v w hu hv

theorem treeOf_ok (hI : IsImplicitSuffixTree T (R.view T)) (hS : R.Safe T size) :
    ∃ t label, treeOf R size T.length = .ok t ∧ SoundTree T t label ∧ ProperTree t ∧
      ∀ (v : Nat) (nd : Inner), t.nodes[v]? = some nd → 0 < nd.depth → ∃ w, Spells (R.view T) v w ∧ nd.depth = w.length ∧ (R.view T).leaf v = none := by
  obtain ⟨xs, h1, hE, -, hC, hD⟩ := walk_ok hI hS (T.length + 2) 0 [] 0 .root (by simp)
  have hmem : ∀ {v : Nat} {nd : Inner}, (v, nd) ∈ xs → ∃ e ∈ xs, e.1 = v := fun h => ⟨_, h, rfl⟩
  -- an entry with a child is a node
  have hkids : ∀ {v : Nat} {nd : Inner} {k : Kid}, (table size xs).nodes[v]? = some nd → k ∈ nd.kids → (v, nd) ∈ xs := by
    intro v nd k h hk
    rcases (table_node h).2 with h | ⟨rfl, -⟩
    · exact h
    · cases hk
  have hdeep : ∀ {v : Nat} {nd : Inner}, (table size xs).nodes[v]? = some nd → 0 < nd.depth → (v, nd) ∈ xs := by
    intro v nd h hk
    rcases (table_node h).2 with h | ⟨rfl, -⟩
    · exact h
    · exact absurd hk (by simp)
  have hentry : ∀ {c : Nat}, (∃ e ∈ xs, e.1 = c) → c < size → ∃ nc, (table size xs).nodes[c]? = some nc ∧ (c, nc) ∈ xs := by
    rintro c ⟨e, he, h⟩ hc
    obtain ⟨nc, hn⟩ : ∃ nc, (table size xs).nodes[c]? = some nc := ⟨_, List.getElem?_eq_getElem (by rw [table_length]; exact hc)⟩
    refine ⟨nc, hn, ?_⟩
    rcases (table_node hn).2 with h' | ⟨-, h'⟩
    · exact h'
    · exact absurd h (h' e he)
  refine ⟨table size xs, labelOf (R.view T) xs, by rw [treeOf]; rw [List.length_nil] at h1; rw [h1, bindOk], ⟨?_, ?_, ?_, ?_⟩, ⟨?_, ?_, ?_, ?_, ?_⟩, ?_⟩
  · intro v nd h
    rcases (table_node h).2 with h | ⟨rfl, h'⟩
    · obtain ⟨w, hw, hd⟩ := (hE _ h).depth
      rw [labelOf_eq hI (hmem h) hw]
      exact hd.symm
    · rw [labelOf_none h']
      rfl
  · intro v nd p h hp
    have hx := hkids h hp
    obtain ⟨w, hw, hd⟩ := (hE _ hx).depth
    obtain ⟨c, hc, hk⟩ := ((hE _ hx).kids _).1 hp
    have hs := hw.step hc
    rw [labelOf_eq hI (hmem hx) hw, ← (hI.leaf c _ p hs (kidV_leaf hk)).2.2]
    exact List.prefix_append ..
  · intro v nd d h hp
    have hx := hkids h hp
    obtain ⟨w, hw, hd⟩ := (hE _ hx).depth
    obtain ⟨c, hc, hk⟩ := ((hE _ hx).kids _).1 hp
    obtain ⟨rfl, hl⟩ := kidV_node hk
    have hs := hw.step hc
    rw [table_length]
    refine ⟨(hS d _ hs).1, ?_⟩
    rw [labelOf_eq hI (hmem hx) hw, labelOf_eq hI (hC _ hx d hc hl) hs]
    exact List.prefix_append ..
  · intro v hv
    rw [table_length]
    obtain ⟨e, he, rfl⟩ := List.mem_map.1 hv
    obtain ⟨w, hw, -⟩ := (hE _ he).depth
    exact (hS _ _ hw).1
  · intro v nd h h0 hk
    have hx := hdeep h h0
    obtain ⟨w, hw, hd⟩ := (hE _ hx).depth
    have hv0 : v ≠ 0 := by
      rintro rfl
      have hw' : Spells (R.view T) 0 w := hw
      rw [hI.path 0 _ _ hw' .root] at hd
      simp only [List.length_nil] at hd
      omega
    have hlen := hI.inner v w hw hv0 (hE _ hx).inner
    obtain ⟨c, hc⟩ := List.exists_mem_of_length_pos (show 0 < ((R.view T).kids v).length by omega)
    have := ((hE _ hx).kids (kidV (R.view T) c)).2 ⟨c, hc, rfl⟩
    simp only at this
    rw [hk] at this
    cases this
  · intro v nd d nc h hp hn
    have hx := hkids h hp
    obtain ⟨w, hw, hd⟩ := (hE _ hx).depth
    obtain ⟨c, hc, hk⟩ := ((hE _ hx).kids _).1 hp
    obtain ⟨rfl, hl⟩ := kidV_node hk
    have hs := hw.step hc
    have hne := hI.edge v w d hw hc
    have hpos := List.length_pos_iff.2 hne
    have hcx : (d, nc) ∈ xs := by
      rcases (table_node hn).2 with h' | ⟨-, h'⟩
      · exact h'
      · obtain ⟨e, he, h2⟩ := hC _ hx d hc hl
        exact absurd h2 (h' e he)
    obtain ⟨w', hw', hd'⟩ := (hE _ hcx).depth
    have hww := hI.path d _ _ hw' hs
    rw [hww, List.length_append] at hd'
    have hd2 : nc.depth = w.length + ((R.view T).edge d).length := hd'
    have hd1 : nd.depth = w.length := hd
    refine ⟨?_, by omega⟩
    rcases hD _ hcx with ⟨q, -⟩ | ⟨e, he, q1, q2⟩
    · exfalso
      have q' : d = 0 := q
      subst q'
      have hnil := hI.path 0 _ _ hs .root
      exact hne (List.append_eq_nil_iff.1 hnil).2
    · obtain ⟨x, hx1, hx2⟩ := (hE _ he).depth
      have hpv := parent_unique hI hx1 hw q1 hc
      have hxw := hI.path v _ _ (hpv ▸ hx1) hw
      have q2' : nc.up = e.2.depth := q2
      rw [q2', hx2, hxw, hd1]
  · intro u v nu nv d hu hv h1 h2
    have hx1 := hkids hu h1
    have hx2 := hkids hv h2
    obtain ⟨w1, hw1, -⟩ := (hE _ hx1).depth
    obtain ⟨w2, hw2, -⟩ := (hE _ hx2).depth
    obtain ⟨c1, hc1, hk1⟩ := ((hE _ hx1).kids _).1 h1
    obtain ⟨rfl, -⟩ := kidV_node hk1
    obtain ⟨c2, hc2, hk2⟩ := ((hE _ hx2).kids _).1 h2
    obtain ⟨rfl, -⟩ := kidV_node hk2
    exact parent_unique hI hw1 hw2 hc1 hc2
  · intro c nc hn h0
    have hx := hdeep hn h0
    rcases hD _ hx with ⟨q, -⟩ | ⟨e, he, q1, -⟩
    · exfalso
      have q' : c = 0 := q
      subst q'
      obtain ⟨w, hw, hd⟩ := (hE _ hx).depth
      have hw' : Spells (R.view T) 0 w := hw
      rw [hI.path 0 _ _ hw' .root] at hd
      simp only [List.length_nil] at hd
      omega
    · obtain ⟨w, hw, -⟩ := (hE _ he).depth
      obtain ⟨nd, hnd, hin⟩ := hentry ⟨e, he, rfl⟩ (hS _ _ hw).1
      refine ⟨e.1, nd, hnd, ?_⟩
      refine ((hE _ hin).kids _).2 ⟨c, q1, ?_⟩
      have hl : (R.view T).leaf c = none := (hE _ hx).inner
      unfold kidV
      rw [hl]
  · intro v nd h h0
    exact List.mem_map.2 ⟨_, hdeep h h0, rfl⟩
  · intro v nd h h0
    obtain ⟨w, h1, h2⟩ := (hE _ (hdeep h h0)).depth
    exact ⟨w, h1, h2, (hE _ (hdeep h h0)).inner⟩

theorem two_kids {l : List Nat} (h : l.Nodup) (h2 : 2 ≤ l.length) : ∃ a b, a ∈ l ∧ b ∈ l ∧ a ≠ b := by
  match l with
  | [] => simp at h2
  | [_] => simp at h2
  | a :: b :: l =>
    refine ⟨a, b, by simp, by simp, ?_⟩
    rintro rfl
    simp at h

/-- the string of an inner node occurs twice -/
theorem inner_twice (hI : IsImplicitSuffixTree T V) {v : Nat} {w : List UInt8} (hs : Spells V v w) (h0 : w ≠ []) (hl : V.leaf v = none) :
    ∃ i j, i ≠ j ∧ w <+: T.drop i ∧ w <+: T.drop j := by
  have hv0 : v ≠ 0 := by
    rintro rfl
    exact h0 (hI.path 0 _ _ hs .root)
  obtain ⟨c, d, hc, hd, hne⟩ := two_kids (hI.nodup v w hs) (hI.inner v w hs hv0 hl)
  have key : ∀ x ∈ V.kids v, ∃ i, w ++ V.edge x <+: T.drop i := by
    intro x hx
    obtain ⟨a, b, e⟩ := (hI.words (w ++ V.edge x)).1 ⟨x, [], by rw [List.append_nil]; exact hs.step hx⟩
    refine ⟨a.length, b, ?_⟩
    rw [← e, List.append_assoc a, List.drop_left]
  obtain ⟨i, hi⟩ := key c hc
  obtain ⟨j, hj⟩ := key d hd
  refine ⟨i, j, ?_, (List.prefix_append ..).trans hi, (List.prefix_append ..).trans hj⟩
  rintro rfl
  refine hne (hI.branch v w c d hs hc hd ?_)
  have e1 := hI.edge v w c hs hc
  have e2 := hI.edge v w d hs hd
  obtain ⟨a, x, ha⟩ := List.exists_cons_of_ne_nil e1
  obtain ⟨b, y, hb⟩ := List.exists_cons_of_ne_nil e2
  rw [ha] at hi ⊢
  rw [hb] at hj ⊢
  obtain ⟨p, hp⟩ := hi
  obtain ⟨q, hq⟩ := hj
  have := hp.trans hq.symm
  rw [List.append_assoc, List.append_assoc] at this
  have := List.append_cancel_left this
  simp at this
  simp [this.1]

end Lfs
end Tdc
