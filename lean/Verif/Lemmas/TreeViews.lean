import Verif.Lemmas.BstLoop
import Verif.Lemmas.TreeWalk

/-!
# The trees that are built are shown by their accessors
-/

namespace Tdc

theorem edge_in {T : List UInt8} {lab : Nat → List UInt8} {j : Nat} {s : Ukk.S} (h : Ukk.TI T lab j s) {v c : Nat} {ch : UInt8} (hv : s.kind v = some .inner)
    (hc : s.kid v ch = some c) : s.start c + Ukk.edgeLength s c ≤ T.length := by
  obtain ⟨h1, h2, h3⟩ := h.edge v ch c hv hc
  have a := h.edgeLength_eq hv hc
  have b := h3.occ.length_le
  have d := h3.le
  have e := h.kid_longer hv hc
  rw [List.length_drop] at b
  omega

/-- a node but the root has a parent -/
theorem spells_parent {V : TreeView} {v : Nat} {w : List UInt8} (h : Spells V v w) : v = 0 ∨ ∃ u x, Spells V u x ∧ v ∈ V.kids u := by
  cases h with
  | root => exact Or.inl rfl
  | step h1 h2 => exact Or.inr ⟨_, _, h1, h2⟩

namespace Ukk

variable {T : List UInt8} {lab : Nat → List UInt8} {j : Nat} {s : S} {V : TreeView}

/-- nodes lie where `Shows` says -/
theorem node_cases (h : TI T lab j s) (hV : Shows T s V) {v : Nat} {w : List UInt8} (hs : Spells V v w) :
    s.kind v ≠ none ∧ (v = 0 ∨ ∃ u ch, s.kind u = some .inner ∧ s.kid u ch = some v) := by
  refine ⟨(Spells.label h hV hs).1, ?_⟩
  rcases spells_parent hs with rfl | ⟨u, x, h1, h2⟩
  · exact Or.inl rfl
  · right
    rcases kind_cases (Spells.label h hV h1).1 with hk | hk
    · rw [hV.none u hk] at h2
      cases h2
    · obtain ⟨ch, hch⟩ := (hV.kids u hk v).1 h2
      exact ⟨u, ch, hk, hch⟩

theorem reader_shows {ks : Nat → List UInt8} (h : TI T lab j s) (hk : Iterates ks s) : Shows T s ((reader ks s).view T) where
  nodup v hv := by
    show (orElse [] (if s.kind v = some .inner then _ else _)).Nodup
    rw [if_pos hv]
    refine List.Nodup.filterMap ?_ (hk v hv).1
    intro a a' c h1 h2
    exact (h.parent_unique hv hv h1 h2).2
  kids v hv c := by
    show c ∈ orElse [] (if s.kind v = some .inner then _ else _) ↔ _
    rw [if_pos hv]
    show c ∈ (ks v).filterMap (s.kid v) ↔ _
    rw [List.mem_filterMap]
    constructor
    · rintro ⟨a, -, ha⟩
      exact ⟨a, ha⟩
    · rintro ⟨a, ha⟩
      exact ⟨a, ((hk v hv).2 a).2 (by rw [ha]; rfl), ha⟩
  none v hv := by
    show orElse [] (if s.kind v = some .inner then _ else _) = _
    rw [if_neg (by rw [hv]; simp), if_pos hv]
    rfl
  edge v ch c hv hc := by
    show (T.drop (orElse 0 (if s.kind c = Option.none then _ else _))).take (orElse 0 (if s.kind c = Option.none then _ else _)) = _
    rw [if_neg (h.edge v ch c hv hc).1, if_neg (h.edge v ch c hv hc).1]
    rfl
  leaf v hv := by
    show orElse Option.none (if s.kind v = some .inner then _ else _) = _
    rcases kind_cases hv with hk | hk
    · rw [if_neg (by rw [hk]; simp), if_pos hk, if_pos hk]
      rfl
    · rw [if_pos hk, if_neg (by rw [hk]; simp)]
      rfl

theorem reader_safe {ks : Nat → List UInt8} (h : TI T lab j s) (hk : Iterates ks s) : (reader ks s).Safe T (s.last + 1) := by
  intro v w hs
  obtain ⟨h1, h2⟩ := node_cases h (reader_shows h hk) hs
  refine ⟨by have := h.old h1; omega, ?_, ?_, s.start v, edgeLength s v, if_neg h1, if_neg h1, ?_⟩
  · rcases kind_cases h1 with hk | hk
    · exact ⟨[], by show (if s.kind v = some .inner then _ else _) = _; rw [if_neg (by rw [hk]; simp), if_pos hk]⟩
    · exact ⟨_, if_pos hk⟩
  · rcases kind_cases h1 with hk | hk
    · exact ⟨_, by show (if s.kind v = some .inner then _ else _) = _; rw [if_neg (by rw [hk]; simp), if_pos hk]⟩
    · exact ⟨_, if_pos hk⟩
  · intro h0
    rcases h2 with rfl | ⟨u, ch, hu, hch⟩
    · exact absurd rfl h0
    · exact edge_in h hu hch

end Ukk

namespace Bst

open Ukk (S TI bind_ok)

variable {T : List UInt8} {lab : Nat → List UInt8} {j N : Nat} {s : S} {b : B} {F G : Nat → Nat} {K : Nat → List Nat}

theorem resized_get {l : List Nat} {f : Nat → Nat} {n k : Nat} (h : Arr l f n) (h0 : ∀ v, n ≤ v → v < k → f v = 0) {v : Nat} (hv : v < k) :
    vget (resized k l) v = .ok (f v) := by
  rw [vget, resized]
  by_cases hvn : v < n
  · rw [List.getElem?_append_left (by rw [List.length_take, h.1]; omega), List.getElem?_take_of_lt hv, h.2 v hvn]
  · rw [List.getElem?_append_right (by rw [List.length_take, h.1]; omega), List.getElem?_replicate, if_pos (by rw [List.length_take, h.1]; omega), h0 v (by omega) hv]

theorem children_ok (hsib : ∀ v, v ≤ s.last → vget b.sib v = .ok (G v)) : ∀ (xs : List Nat) (fuel hd : Nat), Chain G hd xs → (∀ x ∈ xs, x ≤ s.last) → xs.length < fuel →
    children b fuel hd = .ok xs
  | _, 0, _, _, _, hf => absurd hf (by omega)
  | [], fuel + 1, hd, hc, _, _ => by
    have : hd = 0 := hc
    rw [children, if_pos this]
  | x :: xs, fuel + 1, hd, hc, hx, hf => by
    obtain ⟨rfl, h0, hc2⟩ := hc
    rw [children, if_neg h0, hsib hd (hx hd (List.mem_cons_self ..)), bind_ok,
      children_ok hsib xs fuel (G hd) hc2 (fun y hy => hx y (List.mem_cons_of_mem _ hy)) (by simp at hf; omega), bind_ok]

/-- what can be read after `resize` -/
structure Reads (N : Nat) (F G : Nat → Nat) (K : Nat → List Nat) (s : S) (b : B) : Prop where
  first : ∀ v, v ≤ s.last → vget b.first v = .ok (F v)
  kids : ∀ v, s.kind v = some .inner → (reader b).kids v = .ok (K v)
  none : ∀ v, s.kind v = some .leaf → (reader b).kids v = .ok []
  start : ∀ v, v ≤ s.last → (reader b).start v = .ok (s.start v)
  len : ∀ v, v ≤ s.last → (reader b).len v = .ok (Ukk.edgeLength s v)
  leaf : ∀ v, s.kind v ≠ .none → (reader b).leaf v = .ok (if s.kind v = some .leaf then some (s.suf v) else Option.none)
  newNode : b.newNode = s.last + 1

theorem reads (hN : 2 ≤ N) (h : TI T lab j s) (r : Rep N F G K s b) (hK0 : K 0 ≠ []) : Reads N F G K s (resize b) := by
  have hb := r.bound
  have hsz : b.newNode + 1 = s.last + 1 := by rw [r.newNode]
  have first : ∀ v, v ≤ s.last → vget (resize b).first v = .ok (F v) := fun v hv =>
    resized_get r.first (fun u hu _ => (r.big u hu).1) (by omega)
  have sib : ∀ v, v ≤ s.last → vget (resize b).sib v = .ok (G v) := fun v hv =>
    resized_get r.sib (fun u hu _ => (r.big u hu).2) (by omega)
  have start : ∀ v, v ≤ s.last → vget (resize b).start v = .ok (s.start v) := fun v hv => resized_get r.start (fun u hu h' => by omega) (by omega)
  have stop : ∀ v, v ≤ s.last → vget (resize b).stop v = .ok (s.stop v) := fun v hv => resized_get r.stop (fun u hu h' => by omega) (by omega)
  have suf : ∀ v, v ≤ s.last → vget (resize b).suf v = .ok (s.suf v) := fun v hv => resized_get r.suf (fun u hu h' => by omega) (by omega)
  have hnn : (resize b).newNode = s.last + 1 := by show b.newNode + 1 = _; rw [r.newNode]
  have hleaf : ∀ v, s.kind v = some .leaf → F v = 0 := fun v hv => r.firstNone v (by rw [hv]; simp)
  have hinner : ∀ v, s.kind v = some .inner → F v ≠ 0 := by
    intro v hv
    have hc := r.chain v hv
    have hne : K v ≠ [] := by
      by_cases e : v = 0
      · rw [e]; exact hK0
      · obtain ⟨a, _, x, _, -, hx, -⟩ := h.branch v e hv
        intro e2
        have := (r.mem v hv x).2 ⟨a, hx⟩
        rw [e2] at this
        cases this
    cases hk : K v with
    | nil => exact absurd hk hne
    | cons x xs => rw [hk] at hc; rw [hc.1]; exact hc.2.1
  refine ⟨first, ?_, ?_, start, ?_, ?_, hnn⟩
  · intro v hv
    show (vget (resize b).first v).bind _ = _
    rw [first v (h.old (Ukk.inner_ne hv)), bind_ok, hnn]
    exact children_ok sib _ _ _ (r.chain v hv) (fun x hx => mem_old h r hv hx) (by have := kids_length h r hv; omega)
  · intro v hv
    show (vget (resize b).first v).bind _ = _
    rw [first v (h.old (Ukk.leaf_ne hv)), bind_ok, hleaf v hv, hnn, children, if_pos rfl]
  · intro v hv
    show edgeLength (resize b) v = _
    rw [edgeLength, Ukk.edgeLength, start v hv, stop v hv]
    have : (resize b).pos1 = s.pos1 := r.pos1
    rw [this]
    split
    · rfl
    · rfl
  · intro v hv
    show (vget (resize b).first v).bind _ = _
    rw [first v (h.old hv), bind_ok]
    rcases Ukk.kind_cases hv with hk | hk
    · rw [if_pos (hleaf v hk), suf v (h.old hv), bind_ok, if_pos hk]
    · rw [if_neg (hinner v hk), if_neg (by rw [hk]; simp)]

theorem reader_shows (h : TI T lab j s) (r : Rep N F G K s b) {b' : B} (q : Reads N F G K s b') : Ukk.Shows T s ((reader b').view T) where
  nodup v hv := by
    show (orElse [] ((reader b').kids v)).Nodup
    rw [q.kids v hv]
    exact r.nodup v hv
  kids v hv c := by
    show c ∈ orElse [] ((reader b').kids v) ↔ _
    rw [q.kids v hv]
    exact r.mem v hv c
  none v hv := by
    show orElse [] ((reader b').kids v) = _
    rw [q.none v hv]
    rfl
  edge v ch c hv hc := by
    show (T.drop (orElse 0 ((reader b').start c))).take (orElse 0 ((reader b').len c)) = _
    have hl := h.old (h.edge v ch c hv hc).1
    rw [q.start c hl, q.len c hl]
    rfl
  leaf v hv := by
    show orElse Option.none ((reader b').leaf v) = _
    rw [q.leaf v hv]
    rfl

theorem reader_safe (h : TI T lab j s) (r : Rep N F G K s b) {b' : B} (q : Reads N F G K s b') : (reader b').Safe T b'.newNode := by
  intro v w hs
  obtain ⟨h1, h2⟩ := Ukk.node_cases h (reader_shows h r q) hs
  have hl := h.old h1
  refine ⟨by rw [q.newNode]; omega, ?_, ⟨_, q.leaf v h1⟩, _, _, q.start v hl, q.len v hl, ?_⟩
  · rcases Ukk.kind_cases h1 with hk | hk
    · exact ⟨_, q.none v hk⟩
    · exact ⟨_, q.kids v hk⟩
  · intro h0
    rcases h2 with rfl | ⟨u, ch, hu, hch⟩
    · exact absurd rfl h0
    · exact edge_in h hu hch

end Bst
end Tdc
