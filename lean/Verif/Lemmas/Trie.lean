import Verif.Model.Trie
import Mathlib.Data.List.Perm.Subperm

namespace Tdc

theorem nodup_length_le (l : List Nat) (n : Nat) (h : l.Nodup) (hs : ∀ x ∈ l, x < n) : l.length ≤ n := by
  have := (List.Nodup.subperm h (l₂ := List.range n) (fun x hx => List.mem_range.mpr (hs x hx))).length_le
  simpa using this

theorem vget_some {α : Type} {l : List α} {i : Nat} {a : α} (h : l[i]? = some a) : vget l i = .ok a := by
  simp [vget, h]

/-- Children are unique. -/
def Dict.Uniq (d : Dict) : Prop :=
  ∀ (i j p : Nat) (c : UInt8), d[i]? = some (some p, c) → d[j]? = some (some p, c) → i = j

theorem Dict.find_some {d : Dict} {p : Nat} {c : UInt8} {k : Nat} (h : d.find p c = some k) :
    d[k]? = some (some p, c) := by
  unfold Dict.find at h
  rw [List.findIdx?_eq_some_iff_getElem] at h
  obtain ⟨hk, h1, _⟩ := h
  rw [List.getElem?_eq_getElem hk]
  simpa using h1

theorem Dict.find_none {d : Dict} {p : Nat} {c : UInt8} (h : d.find p c = none) (k : Nat) :
    d[k]? ≠ some (some p, c) := by
  unfold Dict.find at h
  rw [List.findIdx?_eq_none_iff] at h
  intro hk
  have := h _ (List.mem_of_getElem? hk)
  simp at this

theorem Dict.find_eq_some {d : Dict} (hu : d.Uniq) {p : Nat} {c : UInt8} {k : Nat}
    (h : d[k]? = some (some p, c)) : d.find p c = some k := by
  cases hf : d.find p c with
  | none => exact absurd h (Dict.find_none hf k)
  | some j => rw [hu j k p c (Dict.find_some hf) h]

theorem Dict.Uniq.append_child {d : Dict} (hu : d.Uniq) {p : Nat} {c : UInt8} (h : d.find p c = none) :
    Dict.Uniq (d ++ [(some p, c)]) := by
  intro i j q e hi hj
  rw [List.getElem?_append] at hi hj
  split at hi <;> split at hj
  · exact hu i j q e hi hj
  · rename_i h1 h2
    have : j - d.length = 0 := by
      have := List.getElem?_eq_some_iff.mp hj; obtain ⟨h, _⟩ := this; simp at h; omega
    rw [this] at hj; simp at hj
    obtain ⟨rfl, rfl⟩ := hj
    exact absurd hi (Dict.find_none h i)
  · rename_i h1 h2
    have : i - d.length = 0 := by
      have := List.getElem?_eq_some_iff.mp hi; obtain ⟨h, _⟩ := this; simp at h; omega
    rw [this] at hi; simp at hi
    obtain ⟨rfl, rfl⟩ := hi
    exact absurd hj (Dict.find_none h j)
  · have h1 := (List.getElem?_eq_some_iff.mp hi).1
    have h2 := (List.getElem?_eq_some_iff.mp hj).1
    simp at h1 h2; omega

theorem Dict.Uniq.append_root {d : Dict} (hu : d.Uniq) {c : UInt8} : Dict.Uniq (d ++ [(none, c)]) := by
  have key : ∀ (i q : Nat) (e : UInt8), (d ++ [(none, c)])[i]? = some (some q, e) → d[i]? = some (some q, e) := by
    intro i q e hi
    rw [List.getElem?_append] at hi
    split at hi
    · exact hi
    · have h1 := (List.getElem?_eq_some_iff.mp hi).1
      have : i - d.length = 0 := by simp at h1; omega
      rw [this] at hi; simp at hi
  intro i j q e hi hj
  exact hu i j q e (key i q e hi) (key j q e hj)

theorem Dict.getElem?_append_child {d : Dict} {e : Option Nat × UInt8} {k : Nat} {x : Option Nat × UInt8} :
    (d ++ [e])[k]? = some x ↔ d[k]? = some x ∨ (k = d.length ∧ x = e) := by
  rw [List.getElem?_append]
  split
  · rename_i h
    constructor
    · exact Or.inl
    · rintro (h1 | ⟨rfl, _⟩)
      · exact h1
      · omega
  · rename_i h
    have hn : d[k]? = none := List.getElem?_eq_none (by omega)
    rw [hn]
    by_cases hk : k = d.length
    · subst hk; simp [eq_comm]
    · constructor
      · intro h1
        have := (List.getElem?_eq_some_iff.mp h1).1
        simp at this; omega
      · rintro (h1 | ⟨h1, _⟩)
        · simp at h1
        · exact absurd h1 hk

/-! ## Sibling chains -/

/-- The chain of `next_sibling` pointers starting at `start` visits `ids`. -/
inductive Chain (ns : List Nat) : Nat → List Nat → Prop
  | nil : Chain ns undefId []
  | cons {k nxt : Nat} {ids : List Nat} : k ≠ undefId → ns[k]? = some nxt → Chain ns nxt ids → Chain ns k (k :: ids)

theorem Chain.congr {ns ns' : List Nat} {start : Nat} {ids : List Nat} (h : Chain ns start ids)
    (hk : ∀ k ∈ ids, ∀ x, ns[k]? = some x → ns'[k]? = some x) : Chain ns' start ids := by
  induction h with
  | nil => exact .nil
  | cons h1 h2 _ ih =>
    exact .cons h1 (hk _ (by simp) _ h2) (ih (fun k hk' => hk k (by simp [hk'])))

/-- Insert `new` after `n`. -/
theorem Chain.insert {ns : List Nat} {start n nxt new : Nat} {a b : List Nat}
    (h : Chain ns start (a ++ n :: b)) (hn : ns[n]? = some nxt) (hnew : new = ns.length) (hnu : new ≠ undefId)
    (hnd : (a ++ n :: b).Nodup) : Chain (ns.set n new ++ [nxt]) start (a ++ n :: new :: b) := by
  have hlt : n < ns.length := (List.getElem?_eq_some_iff.mp hn).1
  induction a generalizing start with
  | nil =>
    simp only [List.nil_append] at *
    cases h with
    | cons h1 h2 h3 =>
      rw [hn] at h2; cases h2
      refine .cons h1 (nxt := new) ?_ (.cons hnu (nxt := nxt) ?_ (h3.congr ?_))
      · rw [List.getElem?_append_left (by simpa using hlt)]; simp [hlt]
      · rw [List.getElem?_append_right (by simp; omega)]; simp [hnew]
      · intro k hk x hx
        have hkn : n ≠ k := by rintro rfl; simp at hnd; exact hnd.1 hk
        have hkl := (List.getElem?_eq_some_iff.mp hx).1
        rw [List.getElem?_append_left (by simpa using hkl), List.getElem?_set_ne hkn, hx]
  | cons a as ih =>
    simp only [List.cons_append] at *
    cases h with
    | cons h1 h2 h3 =>
      have hne : n ≠ a := by rintro rfl; simp at hnd
      have hkl := (List.getElem?_eq_some_iff.mp h2).1
      refine .cons h1 ?_ (ih h3 (List.nodup_cons.mp hnd).2)
      rw [List.getElem?_append_left (by simpa using hkl), List.getElem?_set_ne hne, h2]

theorem Chain.start_ne {ns : List Nat} {start : Nat} {ids : List Nat} (h : Chain ns start ids) :
    start = undefId ↔ ids = [] := by
  cases h with
  | nil => simp
  | cons h1 _ _ => simp [h1]

/-- Literal of a node in the dictionary. -/
def Dict.lit (d : Dict) (k : Nat) : UInt8 := (d[k]?.map (·.2)).getD 0

/-- Invariant of the sibling-list tries; `sorted` demands that sibling lists are sorted by character. -/
structure SibR (sorted : Bool) (t : SibTrie) (d : Dict) : Prop where
  len_fc : t.firstChild.length = d.length
  len_ns : t.nextSibling.length = d.length
  literal : t.literal = d.map (·.2)
  uniq : d.Uniq
  par : ∀ (k q : Nat) (e : UInt8), d[k]? = some (some q, e) → q < d.length
  chain : ∀ p, p < d.length → ∃ start ids, t.firstChild[p]? = some start ∧ Chain t.nextSibling start ids ∧
    ids.Nodup ∧ (∀ k : Nat, k ∈ ids ↔ ∃ c : UInt8, d[k]? = some (some p, c)) ∧
    (sorted = true → ids.Pairwise fun i j => d.lit i < d.lit j)

theorem lit_of {d : Dict} {k : Nat} {e : Option Nat × UInt8} (h : d[k]? = some e) : d.lit k = e.2 := by
  simp [Dict.lit, h]

theorem SibR.lit_get {sorted : Bool} {t : SibTrie} {d : Dict} (h : SibR sorted t d) {k : Nat} (hk : k < d.length) :
    t.literal[k]? = some (d.lit k) := by
  rw [h.literal, List.getElem?_map, List.getElem?_eq_getElem hk]
  simp [Dict.lit, hk]

theorem lit_append {d : Dict} {e : Option Nat × UInt8} {k : Nat} (hk : k < d.length) :
    Dict.lit (d ++ [e]) k = d.lit k := by
  simp [Dict.lit, List.getElem?_append_left hk]

theorem lit_append_self {d : Dict} {e : Option Nat × UInt8} : Dict.lit (d ++ [e]) d.length = e.2 := by
  simp [Dict.lit]

theorem SibR.empty (b : Bool) : SibR b ⟨[], [], []⟩ [] := by
  constructor <;> simp [Dict.Uniq]

theorem SibR.addRoot {b : Bool} {t : SibTrie} {d : Dict} (h : SibR b t d) (hnone : ∀ e ∈ d, e.1 = none) (c : UInt8) :
    SibR b (t.push undefId undefId c) (d ++ [(none, c)]) := by
  constructor
  · simp [SibTrie.push, h.len_fc]
  · simp [SibTrie.push, h.len_ns]
  · simp [SibTrie.push, h.literal]
  · exact h.uniq.append_root
  · intro k q e hk
    rcases Dict.getElem?_append_child.mp hk with h1 | ⟨_, h2⟩
    · have := h.par k q e h1; simp; omega
    · simp at h2
  · intro p hp
    have hno : ∀ (k q : Nat) (e : UInt8), (d ++ [(none, c)])[k]? ≠ some (some q, e) := by
      intro k q e hk
      rcases Dict.getElem?_append_child.mp hk with h1 | ⟨_, h2⟩
      · have := hnone _ (List.mem_of_getElem? h1); simp at this
      · simp at h2
    refine ⟨undefId, [], ?_, .nil, by simp, ?_, by simp⟩
    · by_cases hpd : p < d.length
      · obtain ⟨start, ids, h1, h2, _, h4, _⟩ := h.chain p hpd
        simp only [SibTrie.push]
        rw [List.getElem?_append_left (by rw [h.len_fc]; exact hpd), h1]
        have : ids = [] := by
          cases ids with
          | nil => rfl
          | cons k ks =>
            obtain ⟨e, he⟩ := (h4 k).mp (by simp)
            have := hnone _ (List.mem_of_getElem? he); simp at this
        rw [h2.start_ne.mpr this]
      · have : p = d.length := by simp at hp; omega
        simp [SibTrie.push, this, ← h.len_fc]
    · intro k
      constructor
      · simp
      · rintro ⟨e, he⟩; exact absurd he (hno k p e)

/-- Effect of inserting a new child of `p` on the invariant, given the new sibling list of `p`. -/
theorem SibR.insert {b : Bool} {t : SibTrie} {d : Dict} (h : SibR b t d) {p : Nat} (hp : p < d.length) (c : UInt8)
    (hf : d.find p c = none) (t' : SibTrie)
    (hfcl : t'.firstChild.length = d.length + 1) (hnsl : t'.nextSibling.length = d.length + 1)
    (hl : t'.literal = t.literal ++ [c])
    (hnewfc : t'.firstChild[d.length]? = some undefId)
    (hfc : ∀ q, q ≠ p → q < d.length → t'.firstChild[q]? = t.firstChild[q]?)
    (hns : ∀ k : Nat, k < d.length → (∀ e : UInt8, d[k]? ≠ some (some p, e)) → t'.nextSibling[k]? = t.nextSibling[k]?)
    {start : Nat} {ids : List Nat} (hst : t'.firstChild[p]? = some start) (hch : Chain t'.nextSibling start ids)
    (hnd : ids.Nodup) (hmem : ∀ k : Nat, k ∈ ids ↔ k = d.length ∨ ∃ e : UInt8, d[k]? = some (some p, e))
    (hsort : b = true → ids.Pairwise fun i j => Dict.lit (d ++ [(some p, c)]) i < Dict.lit (d ++ [(some p, c)]) j) :
    SibR b t' (d ++ [(some p, c)]) := by
  constructor
  · simp [hfcl]
  · simp [hnsl]
  · simp [hl, h.literal]
  · exact h.uniq.append_child hf
  · intro k q e hk
    rcases Dict.getElem?_append_child.mp hk with h1 | ⟨_, h2⟩
    · have := h.par k q e h1; simp; omega
    · simp at h2; simp; omega
  · intro q hq
    by_cases hqp : q = p
    · subst hqp
      refine ⟨start, ids, hst, hch, hnd, ?_, hsort⟩
      intro k
      rw [hmem]
      constructor
      · rintro (rfl | ⟨e, he⟩)
        · exact ⟨c, Dict.getElem?_append_child.mpr (Or.inr ⟨rfl, rfl⟩)⟩
        · exact ⟨e, Dict.getElem?_append_child.mpr (Or.inl he)⟩
      · rintro ⟨e, he⟩
        rcases Dict.getElem?_append_child.mp he with h1 | ⟨h1, _⟩
        · exact Or.inr ⟨e, h1⟩
        · exact Or.inl h1
    · by_cases hqd : q < d.length
      · obtain ⟨st, is, h1, h2, h3, h4, h5⟩ := h.chain q hqd
        have hlt : ∀ k ∈ is, k < d.length := fun k hk => by
          obtain ⟨e, he⟩ := (h4 k).mp hk
          exact (List.getElem?_eq_some_iff.mp he).1
        refine ⟨st, is, by rw [hfc q hqp hqd, h1], h2.congr ?_, h3, ?_, ?_⟩
        · intro k hk x hx
          rw [hns k (hlt k hk), hx]
          intro e he
          obtain ⟨e', he'⟩ := (h4 k).mp hk
          rw [he] at he'; simp at he'; exact hqp he'.1.symm
        · intro k
          rw [h4]
          constructor
          · rintro ⟨e, he⟩; exact ⟨e, Dict.getElem?_append_child.mpr (Or.inl he)⟩
          · rintro ⟨e, he⟩
            rcases Dict.getElem?_append_child.mp he with h1 | ⟨_, h2⟩
            · exact ⟨e, h1⟩
            · simp at h2; exact absurd h2.1 hqp
        · intro hb
          refine (h5 hb).imp_of_mem ?_
          intro i j hi hj hij
          rw [lit_append (hlt i hi), lit_append (hlt j hj)]; exact hij
      · have : q = d.length := by simp at hq; omega
        subst this
        refine ⟨undefId, [], hnewfc, .nil, by simp, ?_, by simp⟩
        intro k
        constructor
        · simp
        · rintro ⟨e, he⟩
          rcases Dict.getElem?_append_child.mp he with h1 | ⟨_, h2⟩
          · -- a child of a node that does not exist yet: excluded by the fact that parents are smaller
            have := h.par k _ e h1; omega
          · simp at h2; exact absurd h2.1 hqp


theorem SibR.ids_lt {d : Dict} {p : Nat} {ids : List Nat} (h : ∀ k : Nat, k ∈ ids ↔ ∃ c : UInt8, d[k]? = some (some p, c)) :
    ∀ k ∈ ids, k < d.length := fun k hk => by
  obtain ⟨e, he⟩ := (h k).mp hk
  exact (List.getElem?_eq_some_iff.mp he).1

/-- Walking a chain finds the sibling with the character, or ends at the last sibling. -/
theorem SibTrie.walk_spec (t : SibTrie) (d : Dict) (c : UInt8) (hlit : t.literal = d.map (·.2))
    {start : Nat} {ids : List Nat} (h : Chain t.nextSibling start ids) (hne : ids ≠ [])
    (hlt : ∀ k ∈ ids, k < d.length) (fuel : Nat) (hf : ids.length ≤ fuel) :
    (∃ k ∈ ids, d.lit k = c ∧ t.walk c fuel start = .ok (k, true)) ∨
    ((∀ k ∈ ids, d.lit k ≠ c) ∧ ∃ a n, ids = a ++ [n] ∧ t.walk c fuel start = .ok (n, false)) := by
  induction h generalizing fuel with
  | nil => simp at hne
  | @cons k nxt ids h1 h2 h3 ih =>
    cases fuel with
    | zero => simp at hf
    | succ fuel =>
      have hk := hlt k (by simp)
      have hl : t.literal[k]? = some (d.lit k) := by
        rw [hlit, List.getElem?_map, List.getElem?_eq_getElem hk]; simp [Dict.lit, hk]
      simp only [SibTrie.walk, vget_some hl, vget_some h2]
      by_cases hc : c = d.lit k
      · left; exact ⟨k, by simp, hc.symm, by simp [hc]⟩
      · simp only [hc, if_false]
        by_cases hn : nxt = undefId
        · subst hn
          have : ids = [] := h3.start_ne.mp rfl
          subst this
          right
          refine ⟨by simpa using Ne.symm hc, [], k, by simp, by simp⟩
        · have hne' : ids ≠ [] := fun h => hn (h3.start_ne.mpr h)
          simp only [hn, if_false]
          rcases ih hne' (fun k hk => hlt k (by simp [hk])) fuel (by simpa using hf) with ⟨j, hj, h4, h5⟩ | ⟨h4, a, n, h5, h6⟩
          · left; exact ⟨j, by simp [hj], h4, h5⟩
          · right
            refine ⟨?_, k :: a, n, by simp [h5], h6⟩
            intro j hj
            rcases List.mem_cons.mp hj with rfl | hj
            · exact Ne.symm hc
            · exact h4 j hj

theorem lit_getElem {d : Dict} {k : Nat} (hk : k < d.length) {p : Nat} {e : UInt8} (h : d[k]? = some (some p, e)) :
    d.lit k = e := lit_of h

theorem Chain.getElem {ns : List Nat} {start : Nat} {ids : List Nat} (h : Chain ns start ids) :
    ∀ k ∈ ids, ∃ x, ns[k]? = some x := by
  induction h with
  | nil => simp
  | cons h1 h2 _ ih =>
    intro k hk
    rcases List.mem_cons.mp hk with rfl | hk
    · exact ⟨_, h2⟩
    · exact ih k hk

theorem Chain.last {ns : List Nat} {start n : Nat} {a : List Nat} (h : Chain ns start (a ++ [n])) :
    ns[n]? = some undefId := by
  induction a generalizing start with
  | nil =>
    cases h with
    | cons _ h2 h3 => cases h3; exact h2
  | cons x a ih =>
    cases h with
    | cons _ _ h3 => exact ih h3

/-- New first child. -/
theorem SibR.insertFirst {b : Bool} {t : SibTrie} {d : Dict} (h : SibR b t d) {p : Nat} (hp : p < d.length) (c : UInt8)
    (hsz : d.length < undefId) (hf : d.find p c = none) {start : Nat} {ids : List Nat}
    (hch : Chain t.nextSibling start ids)
    (hnd : ids.Nodup) (hmem : ∀ k : Nat, k ∈ ids ↔ ∃ c : UInt8, d[k]? = some (some p, c))
    (hsort : b = true → (∀ k ∈ ids, c < d.lit k) ∧ ids.Pairwise fun i j => d.lit i < d.lit j) :
    SibR b (({ t with firstChild := t.firstChild.set p d.length }).push undefId start c) (d ++ [(some p, c)]) := by
  have hlt := SibR.ids_lt hmem
  refine h.insert hp c hf _ (start := d.length) (ids := d.length :: ids) ?_ ?_ ?_ ?_ ?_ ?_ ?_ ?_ ?_ ?_ ?_
  · simp [SibTrie.push, h.len_fc]
  · simp [SibTrie.push, h.len_ns]
  · simp [SibTrie.push]
  · simp only [SibTrie.push]
    rw [List.getElem?_append_right (by simp [h.len_fc])]; simp [h.len_fc]
  · intro q hq hqd
    simp only [SibTrie.push]
    rw [List.getElem?_append_left (by simp [h.len_fc, hqd]), List.getElem?_set_ne (Ne.symm hq)]
  · intro k hk _
    simp only [SibTrie.push]
    rw [List.getElem?_append_left (by simp [h.len_ns, hk])]
  · simp only [SibTrie.push]
    rw [List.getElem?_append_left (by simp [h.len_fc, hp])]; simp [h.len_fc, hp]
  · refine .cons (by omega) (nxt := start) ?_ (hch.congr ?_)
    · simp only [SibTrie.push]; rw [List.getElem?_append_right (by simp [h.len_ns])]; simp [h.len_ns]
    · intro k hk x hx
      simp only [SibTrie.push]
      rw [List.getElem?_append_left (by rw [h.len_ns]; exact hlt k hk), hx]
  · refine List.nodup_cons.mpr ⟨fun hx => ?_, hnd⟩
    have := hlt _ hx; omega
  · intro k; simp [hmem]
  · intro hb
    obtain ⟨h1, h2⟩ := hsort hb
    refine List.pairwise_cons.mpr ⟨?_, ?_⟩
    · intro k hk
      rw [lit_append (hlt k hk), lit_append_self]; exact h1 k hk
    · refine h2.imp_of_mem ?_
      intro i j hi hj hij
      rw [lit_append (hlt i hi), lit_append (hlt j hj)]; exact hij

/-- New sibling after `n`. -/
theorem SibR.insertAfter {b : Bool} {t : SibTrie} {d : Dict} (h : SibR b t d) {p : Nat} (hp : p < d.length) (c : UInt8)
    (hsz : d.length < undefId) (hf : d.find p c = none) {start n nxt : Nat} {a bs : List Nat}
    (hst : t.firstChild[p]? = some start)
    (hch : Chain t.nextSibling start (a ++ n :: bs)) (hnxt : t.nextSibling[n]? = some nxt)
    (hnd : (a ++ n :: bs).Nodup) (hmem : ∀ k : Nat, k ∈ (a ++ n :: bs) ↔ ∃ c : UInt8, d[k]? = some (some p, c))
    (hsort : b = true → (∀ k ∈ a ++ [n], d.lit k < c) ∧ (∀ k ∈ bs, c < d.lit k) ∧
      (a ++ n :: bs).Pairwise fun i j => d.lit i < d.lit j) :
    SibR b (({ t with nextSibling := t.nextSibling.set n d.length }).push undefId nxt c) (d ++ [(some p, c)]) := by
  have hlt := SibR.ids_lt hmem
  refine h.insert hp c hf _ (start := start) (ids := a ++ n :: d.length :: bs) ?_ ?_ ?_ ?_ ?_ ?_ ?_ ?_ ?_ ?_ ?_
  · simp [SibTrie.push, h.len_fc]
  · simp [SibTrie.push, h.len_ns]
  · simp [SibTrie.push]
  · simp only [SibTrie.push]
    rw [List.getElem?_append_right (by simp [h.len_fc])]; simp [h.len_fc]
  · intro q hq hqd
    simp only [SibTrie.push]
    rw [List.getElem?_append_left (by simp [h.len_fc, hqd])]
  · intro k hk hk2
    have : n ≠ k := by
      rintro rfl
      obtain ⟨e, he⟩ := (hmem n).mp (by simp)
      exact hk2 e he
    simp only [SibTrie.push]
    rw [List.getElem?_append_left (by simp [h.len_ns, hk]), List.getElem?_set_ne this]
  · simp only [SibTrie.push]
    rw [List.getElem?_append_left (by simp [h.len_fc, hp])]; exact hst
  · exact Chain.insert hch hnxt h.len_ns.symm (by omega) hnd
  · have hnot : d.length ∉ a ++ n :: bs := fun hx => by have := hlt _ hx; omega
    have : (a ++ n :: d.length :: bs).Perm (d.length :: (a ++ n :: bs)) := by
      have h1 : a ++ n :: d.length :: bs = (a ++ [n]) ++ d.length :: bs := by simp
      have h2 : d.length :: (a ++ n :: bs) = d.length :: ((a ++ [n]) ++ bs) := by simp
      rw [h1, h2]; exact List.perm_middle
    exact this.nodup_iff.mpr (List.nodup_cons.mpr ⟨hnot, hnd⟩)
  · intro k
    rw [← hmem]; simp; grind
  · intro hb
    obtain ⟨h1, h2, h3⟩ := hsort hb
    have h3' : (a ++ n :: bs).Pairwise fun i j => Dict.lit (d ++ [(some p, c)]) i < Dict.lit (d ++ [(some p, c)]) j := by
      refine h3.imp_of_mem ?_
      intro i j hi hj hij
      rw [lit_append (hlt i hi), lit_append (hlt j hj)]; exact hij
    have e1 : a ++ n :: d.length :: bs = (a ++ [n]) ++ d.length :: bs := by simp
    have e2 : a ++ n :: bs = (a ++ [n]) ++ bs := by simp
    rw [e2] at h3' hlt
    rw [e1]
    obtain ⟨p1, p2, p3⟩ := List.pairwise_append.mp h3'
    refine List.pairwise_append.mpr ⟨p1, List.pairwise_cons.mpr ⟨?_, p2⟩, ?_⟩
    · intro k hk
      rw [lit_append (hlt k (List.mem_append_right _ hk)), lit_append_self]; exact h2 k hk
    · intro i hi j hj
      rcases List.mem_cons.mp hj with rfl | hj
      · rw [lit_append (hlt i (List.mem_append_left _ hi)), lit_append_self]; exact h1 i hi
      · exact p3 i hi j hj

theorem SibR.sim_hit {t : SibTrie} {d : Dict} (h : SibR false t d) {p k : Nat} {c : UInt8} (hp : p < d.length)
    (hf : d.find p c = some k) : t.findOrInsert p c = .ok (t, k, false) := by
  obtain ⟨start, ids, h1, h2, h3, h4, _⟩ := h.chain p hp
  have hk := Dict.find_some hf
  have hkm := (h4 k).mpr ⟨c, hk⟩
  have hne : ids ≠ [] := by rintro rfl; simp at hkm
  have hs : start ≠ undefId := fun e => hne (h2.start_ne.mp e)
  have hlt := SibR.ids_lt h4
  simp only [SibTrie.findOrInsert, vget_some h1, hs, if_false]
  rcases SibTrie.walk_spec t d c h.literal h2 hne hlt (t.firstChild.length + 1)
      (by have := nodup_length_le ids d.length h3 hlt; rw [h.len_fc]; omega) with ⟨j, hj, h5, h6⟩ | ⟨h5, _⟩
  · rw [h6]
    obtain ⟨e, he⟩ := (h4 j).mp hj
    have : e = c := by rw [← h5, lit_of he]
    subst this
    rw [h.uniq j k p e he hk]
  · exact absurd (lit_of hk) (h5 k hkm)

theorem SibR.sim_miss {t : SibTrie} {d : Dict} (h : SibR false t d) {p : Nat} {c : UInt8} (hp : p < d.length)
    (hsz : d.length < undefId) (hf : d.find p c = none) :
    ∃ t', t.findOrInsert p c = .ok (t', d.length, true) ∧ SibR false t' (d ++ [(some p, c)]) := by
  obtain ⟨start, ids, h1, h2, h3, h4, _⟩ := h.chain p hp
  have hlt := SibR.ids_lt h4
  by_cases hs : start = undefId
  · refine ⟨_, by simp only [SibTrie.findOrInsert, vget_some h1, hs, if_true]; rw [h.len_fc], ?_⟩
    have := h.insertFirst hp c hsz hf h2 h3 h4 (by simp)
    rwa [hs] at this
  · have hne : ids ≠ [] := fun e => hs (h2.start_ne.mpr e)
    simp only [SibTrie.findOrInsert, vget_some h1, hs, if_false]
    rcases SibTrie.walk_spec t d c h.literal h2 hne hlt (t.firstChild.length + 1)
        (by have := nodup_length_le ids d.length h3 hlt; rw [h.len_fc]; omega) with ⟨j, hj, h5, h6⟩ | ⟨h5, a, n, h6, h7⟩
    · obtain ⟨e, he⟩ := (h4 j).mp hj
      have : e = c := by rw [← h5, lit_of he]
      subst this
      exact absurd he (Dict.find_none hf j)
    · rw [h7]
      subst h6
      refine ⟨_, by rw [h.len_fc], ?_⟩
      exact h.insertAfter hp c hsz hf h1 h2 h2.last h3 h4 (by simp)

theorem binaryTrie_sim : TrieSim binaryTrie (fun t d _ => SibR false t d) (fun _ _ _ => True) where
  empty := SibR.empty _
  addRoot _ d c h hn _ := h.addRoot (fun e he => by
    obtain ⟨i, hi⟩ := List.mem_iff_getElem?.mp he; exact (hn i e hi).1) c
  getRoot _ _ _ h _ := ⟨rfl, h⟩
  size _ _ _ h := h.len_fc
  hit s _ _ _ _ h hp _ _ hf := ⟨s, h.sim_hit hp hf, h⟩
  miss _ _ _ _ h hp hs _ hf := h.sim_miss hp hs hf

theorem binaryTrie_reset : TrieReset binaryTrie (fun t d _ => SibR false t d) where
  clear _ _ _ _ := SibR.empty _
  any_cur _ _ _ _ h := h

/-! ## Sorted sibling lists -/

theorem SibTrie.walkSorted_spec (t : SibTrie) (d : Dict) (c : UInt8) (hlit : t.literal = d.map (·.2))
    {start : Nat} {ids : List Nat} (h : Chain t.nextSibling start ids) (hne : ids ≠ [])
    (hlt : ∀ k ∈ ids, k < d.length) (hs : ids.Pairwise fun i j => d.lit i < d.lit j)
    (hfirst : ¬ d.lit start > c) (fuel : Nat) (hf : ids.length ≤ fuel) :
    (∃ k ∈ ids, d.lit k = c ∧ t.walkSorted c fuel start = .ok (.inl k)) ∨
    (∃ a n bs nxt, ids = a ++ n :: bs ∧ t.nextSibling[n]? = some nxt ∧
      (∀ k ∈ a ++ [n], d.lit k < c) ∧ (∀ k ∈ bs, c < d.lit k) ∧ t.walkSorted c fuel start = .ok (.inr (n, nxt))) := by
  induction h generalizing fuel with
  | nil => simp at hne
  | @cons k nxt ids h1 h2 h3 ih =>
    cases fuel with
    | zero => simp at hf
    | succ fuel =>
      have hk := hlt k (by simp)
      have hl : ∀ k, k < d.length → t.literal[k]? = some (d.lit k) := by
        intro k hk
        rw [hlit, List.getElem?_map, List.getElem?_eq_getElem hk]; simp [Dict.lit, hk]
      simp only [SibTrie.walkSorted, vget_some (hl k hk), vget_some h2]
      by_cases hc : c = d.lit k
      · left; exact ⟨k, by simp, hc.symm, by simp [hc]⟩
      · have hkc : d.lit k < c := by
          rcases UInt8.lt_or_lt_of_ne hc with h | h
          · exact absurd h hfirst
          · exact h
        simp only [hc, if_false]
        by_cases hn : nxt = undefId
        · subst hn
          have : ids = [] := h3.start_ne.mp rfl
          subst this
          right
          exact ⟨[], k, [], undefId, by simp, h2, by simpa using hkc, by simp, by simp⟩
        · have hne' : ids ≠ [] := fun h => hn (h3.start_ne.mpr h)
          have hmem : nxt ∈ ids := by cases h3 with
            | nil => simp at hne'
            | cons => simp
          simp only [hn, if_false, vget_some (hl nxt (hlt nxt (by simp [hmem])))]
          obtain ⟨hs1, hs2⟩ := List.pairwise_cons.mp hs
          by_cases hg : d.lit nxt > c
          · simp only [hg, if_true]
            right
            refine ⟨[], k, ids, nxt, by simp, h2, by simpa using hkc, ?_, rfl⟩
            intro j hj
            cases h3 with
            | nil => simp at hj
            | cons _ _ _ =>
              rcases List.mem_cons.mp hj with rfl | hj
              · exact hg
              · exact UInt8.lt_trans hg ((List.pairwise_cons.mp hs2).1 j hj)
          · simp only [hg, if_false]
            rcases ih hne' (fun k hk => hlt k (by simp [hk])) hs2 hg fuel (by simpa using hf) with
              ⟨j, hj, h4, h5⟩ | ⟨a, n, bs, nx, h4, h5, h6, h7, h8⟩
            · left; exact ⟨j, by simp [hj], h4, h5⟩
            · right
              refine ⟨k :: a, n, bs, nx, by simp [h4], h5, ?_, h7, h8⟩
              intro j hj
              rw [List.cons_append] at hj
              rcases List.mem_cons.mp hj with rfl | hj
              · exact hkc
              · exact h6 j hj

theorem SibR.sorted_hit {t : SibTrie} {d : Dict} (h : SibR true t d) {p k : Nat} {c : UInt8} (hp : p < d.length)
    (hf : d.find p c = some k) : t.findOrInsertSorted p c = .ok (t, k, false) := by
  obtain ⟨start, ids, h1, h2, h3, h4, h5⟩ := h.chain p hp
  have hk := Dict.find_some hf
  have hkm := (h4 k).mpr ⟨c, hk⟩
  have hne : ids ≠ [] := by rintro rfl; simp at hkm
  have hs : start ≠ undefId := fun e => hne (h2.start_ne.mp e)
  have hlt := SibR.ids_lt h4
  have hsm : start ∈ ids := by cases h2 with
    | nil => simp at hne
    | cons => simp
  have hnot : ¬ d.lit start > c := by
    cases h2 with
    | nil => simp at hne
    | cons _ _ _ =>
      rcases List.mem_cons.mp hkm with rfl | hj
      · rw [lit_of hk]; exact UInt8.lt_irrefl _
      · have := (List.pairwise_cons.mp (h5 rfl)).1 k hj
        rw [lit_of hk] at this
        intro hx; exact UInt8.lt_irrefl _ (UInt8.lt_trans hx this)
  simp only [SibTrie.findOrInsertSorted, vget_some h1, hs, if_false, vget_some (h.lit_get (hlt _ hsm)), hnot]
  rcases SibTrie.walkSorted_spec t d c h.literal h2 hne hlt (h5 rfl) hnot (t.firstChild.length + 1)
      (by have := nodup_length_le ids d.length h3 hlt; rw [h.len_fc]; omega) with ⟨j, hj, h5, h6⟩ | ⟨a, n, bs, nx, e1, e2, e3, e4, e5⟩
  · rw [h6]
    obtain ⟨e, he⟩ := (h4 j).mp hj
    have : e = c := by rw [← h5, lit_of he]
    subst this
    rw [h.uniq j k p e he hk]
  · exfalso
    subst e1
    rcases List.mem_append.mp (show k ∈ (a ++ [n]) ++ bs by simpa using hkm) with hx | hx
    · have := e3 k hx; rw [lit_of hk] at this; exact UInt8.lt_irrefl _ this
    · have := e4 k hx; rw [lit_of hk] at this; exact UInt8.lt_irrefl _ this

theorem SibR.sorted_miss {t : SibTrie} {d : Dict} (h : SibR true t d) {p : Nat} {c : UInt8} (hp : p < d.length)
    (hsz : d.length < undefId) (hf : d.find p c = none) :
    ∃ t', t.findOrInsertSorted p c = .ok (t', d.length, true) ∧ SibR true t' (d ++ [(some p, c)]) := by
  obtain ⟨start, ids, h1, h2, h3, h4, h5⟩ := h.chain p hp
  have hlt := SibR.ids_lt h4
  by_cases hs : start = undefId
  · refine ⟨_, by simp only [SibTrie.findOrInsertSorted, vget_some h1, hs, if_true]; rw [h.len_fc], ?_⟩
    have hids := h2.start_ne.mp hs
    have := h.insertFirst hp c hsz hf h2 h3 h4 (by simp [hids])
    rwa [hs] at this
  · have hne : ids ≠ [] := fun e => hs (h2.start_ne.mpr e)
    have hsm : start ∈ ids := by cases h2 with
      | nil => simp at hne
      | cons => simp
    simp only [SibTrie.findOrInsertSorted, vget_some h1, hs, if_false, vget_some (h.lit_get (hlt _ hsm))]
    by_cases hg : d.lit start > c
    · simp only [hg, if_true]
      refine ⟨_, by rw [h.len_fc], ?_⟩
      refine h.insertFirst hp c hsz hf h2 h3 h4 (fun _ => ⟨?_, h5 rfl⟩)
      intro j hj
      cases h2 with
      | nil => simp at hj
      | cons _ _ _ =>
        rcases List.mem_cons.mp hj with rfl | hj
        · exact hg
        · exact UInt8.lt_trans hg ((List.pairwise_cons.mp (h5 rfl)).1 j hj)
    · simp only [hg, if_false]
      rcases SibTrie.walkSorted_spec t d c h.literal h2 hne hlt (h5 rfl) hg (t.firstChild.length + 1)
          (by have := nodup_length_le ids d.length h3 hlt; rw [h.len_fc]; omega) with ⟨j, hj, h6, h7⟩ | ⟨a, n, bs, nx, e1, e2, e3, e4, e5⟩
      · obtain ⟨e, he⟩ := (h4 j).mp hj
        have : e = c := by rw [← h6, lit_of he]
        subst this
        exact absurd he (Dict.find_none hf j)
      · rw [e5]
        subst e1
        refine ⟨_, by rw [h.len_fc], ?_⟩
        exact h.insertAfter hp c hsz hf h1 h2 e2 h3 h4 (fun _ => ⟨e3, e4, h5 rfl⟩)

theorem binarySortedTrie_sim : TrieSim binarySortedTrie (fun t d _ => SibR true t d) (fun _ _ _ => True) where
  empty := SibR.empty _
  addRoot _ d c h hn _ := h.addRoot (fun e he => by
    obtain ⟨i, hi⟩ := List.mem_iff_getElem?.mp he; exact (hn i e hi).1) c
  getRoot _ _ _ h _ := ⟨rfl, h⟩
  size _ _ _ h := h.len_fc
  hit s _ _ _ _ h hp _ _ hf := ⟨s, h.sorted_hit hp hf, h⟩
  miss _ _ _ _ h hp hs _ hf := h.sorted_miss hp hs hf

theorem binarySortedTrie_reset : TrieReset binarySortedTrie (fun t d _ => SibR true t d) where
  clear _ _ _ _ := SibR.empty _
  any_cur _ _ _ _ h := h


/-! ## TernaryTrie: siblings form a binary search tree -/

inductive BTree where
  | leaf | node (k : Nat) (l r : BTree)

namespace BTree
def ids : BTree → List Nat
  | leaf => []
  | node k l r => l.ids ++ k :: r.ids

/-- Search tree insertion. -/
def ins (lit : Nat → UInt8) (c : UInt8) (new : Nat) : BTree → BTree
  | leaf => node new leaf leaf
  | node k l r => if c < lit k then node k (l.ins lit c new) r else if c > lit k then node k l (r.ins lit c new) else node k l r

theorem mem_ins {lit : Nat → UInt8} {c : UInt8} {new : Nat} {t : BTree} (h : ∀ k ∈ t.ids, lit k ≠ c) (x : Nat) :
    x ∈ (t.ins lit c new).ids ↔ x = new ∨ x ∈ t.ids := by
  induction t with
  | leaf => simp [ins, ids]
  | node k l r ihl ihr =>
    have hl := ihl (fun j hj => h j (by simp [ids, hj]))
    have hr := ihr (fun j hj => h j (by simp [ids, hj]))
    have hk := h k (by simp [ids])
    simp only [ins]
    split
    · simp [ids, hl]; grind
    · split
      · simp [ids, hr]; grind
      · rename_i h1 h2
        rcases UInt8.lt_or_lt_of_ne hk with h | h
        · exact absurd h h2
        · exact absurd h h1

theorem pairwise_ins {lit lit' : Nat → UInt8} {c : UInt8} {new : Nat} {t : BTree} (h : ∀ k ∈ t.ids, lit k ≠ c)
    (hl : ∀ k ∈ t.ids, lit' k = lit k) (hn : lit' new = c)
    (hp : t.ids.Pairwise fun i j => lit i < lit j) : (t.ins lit c new).ids.Pairwise fun i j => lit' i < lit' j := by
  induction t with
  | leaf => simp [ins, ids]
  | node k l r ihl ihr =>
    have hl1 : ∀ j ∈ l.ids, lit j ≠ c := fun j hj => h j (by simp [ids, hj])
    have hr1 : ∀ j ∈ r.ids, lit j ≠ c := fun j hj => h j (by simp [ids, hj])
    simp only [ids] at hp
    obtain ⟨p1, p2, p3⟩ := List.pairwise_append.mp hp
    obtain ⟨p4, p5⟩ := List.pairwise_cons.mp p2
    have il := ihl hl1 (fun j hj => hl j (by simp [ids, hj])) p1
    have ir := ihr hr1 (fun j hj => hl j (by simp [ids, hj])) p5
    have hlk := hl k (by simp [ids])
    have hll : ∀ j ∈ l.ids, lit' j = lit j := fun j hj => hl j (by simp [ids, hj])
    have hlr : ∀ j ∈ r.ids, lit' j = lit j := fun j hj => hl j (by simp [ids, hj])
    have ol : l.ids.Pairwise fun i j => lit' i < lit' j :=
      p1.imp_of_mem (fun hi hj hij => by rw [hll _ hi, hll _ hj]; exact hij)
    have or : r.ids.Pairwise fun i j => lit' i < lit' j :=
      p5.imp_of_mem (fun hi hj hij => by rw [hlr _ hi, hlr _ hj]; exact hij)
    simp only [ins]
    split
    · rename_i hck
      simp only [ids]
      refine List.pairwise_append.mpr ⟨il, List.pairwise_cons.mpr ⟨?_, or⟩, ?_⟩
      · intro j hj; rw [hlk, hlr j hj]; exact p4 j hj
      · intro i hi j hj
        have hi' := (mem_ins hl1 i).mp hi
        have hkj : lit' k < lit' j ∨ j = k := by
          rcases List.mem_cons.mp hj with rfl | hj
          · right; rfl
          · left; rw [hlk, hlr j hj]; exact p4 j hj
        have hik : lit' i < lit' k := by
          rcases hi' with rfl | hi'
          · rw [hn, hlk]; exact hck
          · rw [hll i hi', hlk]; exact p3 i hi' k (by simp)
        rcases hkj with h | rfl
        · exact UInt8.lt_trans hik h
        · exact hik
    · split
      · rename_i _ hck
        simp only [ids]
        have hkj : ∀ j ∈ (r.ins lit c new).ids, lit' k < lit' j := by
          intro j hj
          rcases (mem_ins hr1 j).mp hj with rfl | hj
          · rw [hn, hlk]; exact hck
          · rw [hlr j hj, hlk]; exact p4 j hj
        refine List.pairwise_append.mpr ⟨ol, List.pairwise_cons.mpr ⟨hkj, ir⟩, ?_⟩
        intro i hi j hj
        have hik : lit' i < lit' k := by rw [hll i hi, hlk]; exact p3 i hi k (by simp)
        rcases List.mem_cons.mp hj with rfl | hj
        · exact hik
        · exact UInt8.lt_trans hik (hkj j hj)
      · rename_i h1 h2
        rcases UInt8.lt_or_lt_of_ne (h k (by simp [ids])) with h | h
        · exact absurd h h2
        · exact absurd h h1
end BTree

/-- The `left`/`right` pointers below `start` form the tree. -/
inductive Tr (l r : List Nat) : Nat → BTree → Prop
  | leaf : Tr l r undefId .leaf
  | node {k a b : Nat} {L R : BTree} : k ≠ undefId → l[k]? = some a → r[k]? = some b → Tr l r a L → Tr l r b R →
      Tr l r k (.node k L R)

theorem Tr.congr {l r l' r' : List Nat} {start : Nat} {t : BTree} (h : Tr l r start t)
    (h1 : ∀ k ∈ t.ids, ∀ x, l[k]? = some x → l'[k]? = some x)
    (h2 : ∀ k ∈ t.ids, ∀ x, r[k]? = some x → r'[k]? = some x) : Tr l' r' start t := by
  induction h with
  | leaf => exact .leaf
  | node a1 a2 a3 _ _ ih1 ih2 =>
    exact .node a1 (h1 _ (by simp [BTree.ids]) _ a2) (h2 _ (by simp [BTree.ids]) _ a3)
      (ih1 (fun k hk => h1 k (by simp [BTree.ids, hk])) (fun k hk => h2 k (by simp [BTree.ids, hk])))
      (ih2 (fun k hk => h1 k (by simp [BTree.ids, hk])) (fun k hk => h2 k (by simp [BTree.ids, hk])))

theorem Tr.start_ne {l r : List Nat} {start : Nat} {t : BTree} (h : Tr l r start t) : start = undefId ↔ t = .leaf := by
  cases h with
  | leaf => simp
  | node h1 => simp [h1]

theorem getElem?_set_append {l : List Nat} {n k new x y : Nat} (hne : n ≠ k) (h : l[k]? = some x) :
    (l.set n new ++ [y])[k]? = some x := by
  have hk := (List.getElem?_eq_some_iff.mp h).1
  rw [List.getElem?_append_left (by simpa using hk), List.getElem?_set_ne hne, h]

theorem getElem?_append_snoc {l : List Nat} {k x y : Nat} (h : l[k]? = some x) : (l ++ [y])[k]? = some x := by
  have hk := (List.getElem?_eq_some_iff.mp h).1
  rw [List.getElem?_append_left hk, h]

theorem TernTrie.walk_spec (t : TernTrie) (d : Dict) (c : UInt8) (hlit : t.literal = d.map (·.2))
    (hll : t.left.length = d.length) (hlr : t.right.length = d.length) (hsz : d.length < undefId)
    {start : Nat} {tree : BTree} (h : Tr t.left t.right start tree) (hne : tree ≠ .leaf)
    (hlt : ∀ k ∈ tree.ids, k < d.length) (hs : tree.ids.Pairwise fun i j => d.lit i < d.lit j)
    (fuel : Nat) (hf : tree.ids.length ≤ fuel) :
    (∃ k ∈ tree.ids, d.lit k = c ∧ t.walk c fuel start = .ok (.found k)) ∨
    ((∀ k ∈ tree.ids, d.lit k ≠ c) ∧ ∃ n ∈ tree.ids,
      ((t.walk c fuel start = .ok (.insLeft n) ∧
        Tr (t.left.set n d.length ++ [undefId]) (t.right ++ [undefId]) start (tree.ins d.lit c d.length)) ∨
       (t.walk c fuel start = .ok (.insRight n) ∧
        Tr (t.left ++ [undefId]) (t.right.set n d.length ++ [undefId]) start (tree.ins d.lit c d.length)))) := by
  induction h generalizing fuel with
  | leaf => simp at hne
  | @node k a b L R h1 h2 h3 h4 h5 ih1 ih2 =>
    cases fuel with
    | zero => simp [BTree.ids] at hf
    | succ fuel =>
      have hk := hlt k (by simp [BTree.ids])
      have hl : t.literal[k]? = some (d.lit k) := by
        rw [hlit, List.getElem?_map, List.getElem?_eq_getElem hk]; simp [Dict.lit, hk]
      simp only [BTree.ids] at hs
      obtain ⟨p1, p2, p3⟩ := List.pairwise_append.mp hs
      obtain ⟨p4, p5⟩ := List.pairwise_cons.mp p2
      have hLne : ∀ j ∈ L.ids, j ≠ k := fun j hj e => by
        subst e; exact UInt8.lt_irrefl _ (p3 j hj j (by simp))
      have hRne : ∀ j ∈ R.ids, j ≠ k := fun j hj e => by
        subst e; exact UInt8.lt_irrefl _ (p4 j hj)
      have hLR : ∀ i ∈ L.ids, ∀ j ∈ R.ids, i ≠ j := fun i hi j hj e => by
        subst e; exact UInt8.lt_irrefl _ (p3 i hi i (by simp [hj]))
      have hnew : Tr (t.left ++ [undefId]) (t.right ++ [undefId]) d.length (.node d.length .leaf .leaf) :=
        .node (by omega) (by rw [← hll]; simp) (by rw [← hlr]; simp) .leaf .leaf
      have hlen : L.ids.length + R.ids.length + 1 ≤ fuel + 1 := by
        simp [BTree.ids] at hf; omega
      simp only [TernTrie.walk, vget_some hl, vget_some h2, vget_some h3]
      by_cases hcl : c < d.lit k
      · simp only [hcl, if_true]
        have hRc : ∀ j ∈ R.ids, d.lit j ≠ c := fun j hj e => by
          have := p4 j hj; rw [e] at this; exact UInt8.lt_irrefl _ (UInt8.lt_trans this hcl)
        have hkc : d.lit k ≠ c := fun e => by rw [e] at hcl; exact UInt8.lt_irrefl _ hcl
        by_cases ha : a = undefId
        · have hL : L = .leaf := h4.start_ne.mp ha
          subst hL; subst ha
          right
          refine ⟨?_, k, by simp [BTree.ids], Or.inl ⟨by simp, ?_⟩⟩
          · intro j hj
            simp [BTree.ids] at hj
            rcases hj with rfl | hj
            · exact hkc
            · exact hRc j hj
          · simp only [BTree.ins, hcl, if_true]
            have hkl : k < t.left.length := by omega
            refine .node h1 (a := d.length) ?_ (getElem?_append_snoc h3) ?_ ?_
            · rw [List.getElem?_append_left (by simpa using hkl)]; simp [hkl]
            · refine hnew.congr ?_ (fun _ _ _ h => h)
              intro j hj x hx
              simp [BTree.ids] at hj; subst hj
              rw [← hx, ← hll, List.getElem?_append_right (by simp), List.getElem?_append_right (by simp)]; simp
            · refine h5.congr ?_ (fun _ _ _ h => getElem?_append_snoc h)
              intro j hj x hx
              exact getElem?_set_append (Ne.symm (hRne j hj)) hx
        · simp only [ha, if_false]
          have hLn : L ≠ .leaf := fun e => ha (h4.start_ne.mpr e)
          rcases ih1 hLn (fun j hj => hlt j (by simp [BTree.ids, hj])) p1 fuel (by omega) with
            ⟨j, hj, e1, e2⟩ | ⟨e1, n, hn, ⟨e2, e3⟩ | ⟨e2, e3⟩⟩
          · left; exact ⟨j, by simp [BTree.ids, hj], e1, e2⟩
          all_goals
            right
            refine ⟨?_, n, by simp [BTree.ids, hn], ?_⟩
            · intro j hj
              simp [BTree.ids] at hj
              rcases hj with hj | rfl | hj
              · exact e1 j hj
              · exact hkc
              · exact hRc j hj
          · refine Or.inl ⟨e2, ?_⟩
            simp only [BTree.ins, hcl, if_true]
            refine .node h1 (getElem?_set_append (hLne n hn) h2) (getElem?_append_snoc h3) e3 ?_
            exact h5.congr (fun j hj x hx => getElem?_set_append (hLR n hn j hj) hx) (fun _ _ _ h => getElem?_append_snoc h)
          · refine Or.inr ⟨e2, ?_⟩
            simp only [BTree.ins, hcl, if_true]
            refine .node h1 (getElem?_append_snoc h2) (getElem?_set_append (hLne n hn) h3) e3 ?_
            exact h5.congr (fun _ _ _ h => getElem?_append_snoc h) (fun j hj x hx => getElem?_set_append (hLR n hn j hj) hx)
      · simp only [hcl, if_false]
        by_cases hcg : c > d.lit k
        · simp only [hcg, if_true]
          have hLc : ∀ j ∈ L.ids, d.lit j ≠ c := fun j hj e => by
            have := p3 j hj k (by simp); rw [e] at this; exact UInt8.lt_irrefl _ (UInt8.lt_trans this hcg)
          have hkc : d.lit k ≠ c := fun e => by rw [e] at hcg; exact UInt8.lt_irrefl _ hcg
          by_cases hb : b = undefId
          · have hR : R = .leaf := h5.start_ne.mp hb
            subst hR; subst hb
            right
            refine ⟨?_, k, by simp [BTree.ids], Or.inr ⟨by simp, ?_⟩⟩
            · intro j hj
              simp [BTree.ids] at hj
              rcases hj with hj | rfl
              · exact hLc j hj
              · exact hkc
            · simp only [BTree.ins, hcl, hcg, if_true, if_false]
              have hkl : k < t.right.length := by omega
              refine .node h1 (b := d.length) (getElem?_append_snoc h2) ?_ ?_ ?_
              · rw [List.getElem?_append_left (by simpa using hkl)]; simp [hkl]
              · refine h4.congr (fun _ _ _ h => getElem?_append_snoc h) ?_
                intro j hj x hx
                exact getElem?_set_append (Ne.symm (hLne j hj)) hx
              · refine hnew.congr (fun _ _ _ h => h) ?_
                intro j hj x hx
                simp [BTree.ids] at hj; subst hj
                rw [← hx, ← hlr, List.getElem?_append_right (by simp), List.getElem?_append_right (by simp)]; simp
          · simp only [hb, if_false]
            have hRn : R ≠ .leaf := fun e => hb (h5.start_ne.mpr e)
            rcases ih2 hRn (fun j hj => hlt j (by simp [BTree.ids, hj])) p5 fuel (by omega) with
              ⟨j, hj, e1, e2⟩ | ⟨e1, n, hn, ⟨e2, e3⟩ | ⟨e2, e3⟩⟩
            · left; exact ⟨j, by simp [BTree.ids, hj], e1, e2⟩
            all_goals
              right
              refine ⟨?_, n, by simp [BTree.ids, hn], ?_⟩
              · intro j hj
                simp [BTree.ids] at hj
                rcases hj with hj | rfl | hj
                · exact hLc j hj
                · exact hkc
                · exact e1 j hj
            · refine Or.inl ⟨e2, ?_⟩
              simp only [BTree.ins, hcl, hcg, if_true, if_false]
              refine .node h1 (getElem?_set_append (hRne n hn) h2) (getElem?_append_snoc h3) ?_ e3
              exact h4.congr (fun j hj x hx => getElem?_set_append (Ne.symm (hLR j hj n hn)) hx) (fun _ _ _ h => getElem?_append_snoc h)
            · refine Or.inr ⟨e2, ?_⟩
              simp only [BTree.ins, hcl, hcg, if_true, if_false]
              refine .node h1 (getElem?_append_snoc h2) (getElem?_set_append (hRne n hn) h3) ?_ e3
              exact h4.congr (fun _ _ _ h => getElem?_append_snoc h) (fun j hj x hx => getElem?_set_append (Ne.symm (hLR j hj n hn)) hx)
        · left
          refine ⟨k, by simp [BTree.ids], ?_, by simp [hcg]⟩
          exact UInt8.le_antisymm (UInt8.not_lt.mp hcl) (UInt8.not_lt.mp hcg)

/-- Invariant of the ternary trie. -/
structure TernR (t : TernTrie) (d : Dict) : Prop where
  len_fc : t.firstChild.length = d.length
  len_l : t.left.length = d.length
  len_r : t.right.length = d.length
  literal : t.literal = d.map (·.2)
  uniq : d.Uniq
  par : ∀ (k q : Nat) (e : UInt8), d[k]? = some (some q, e) → q < d.length
  tree : ∀ p, p < d.length → ∃ start tree, t.firstChild[p]? = some start ∧ Tr t.left t.right start tree ∧
    (∀ k : Nat, k ∈ tree.ids ↔ ∃ c : UInt8, d[k]? = some (some p, c)) ∧
    (tree.ids.Pairwise fun i j => d.lit i < d.lit j)

theorem TernR.empty : TernR ⟨[], [], [], []⟩ [] := by
  constructor <;> simp [Dict.Uniq]

theorem pairwise_nodup {d : Dict} {l : List Nat} (h : l.Pairwise fun i j => d.lit i < d.lit j) : l.Nodup :=
  h.imp (fun hij e => by rw [e] at hij; exact UInt8.lt_irrefl _ hij)

theorem TernR.addRoot {t : TernTrie} {d : Dict} (h : TernR t d) (hnone : ∀ e ∈ d, e.1 = none) (c : UInt8) :
    TernR (t.push c) (d ++ [(none, c)]) := by
  constructor
  · simp [TernTrie.push, h.len_fc]
  · simp [TernTrie.push, h.len_l]
  · simp [TernTrie.push, h.len_r]
  · simp [TernTrie.push, h.literal]
  · exact h.uniq.append_root
  · intro k q e hk
    rcases Dict.getElem?_append_child.mp hk with h1 | ⟨_, h2⟩
    · have := h.par k q e h1; simp; omega
    · simp at h2
  · intro p hp
    have hno : ∀ (k q : Nat) (e : UInt8), (d ++ [(none, c)])[k]? ≠ some (some q, e) := by
      intro k q e hk
      rcases Dict.getElem?_append_child.mp hk with h1 | ⟨_, h2⟩
      · have := hnone _ (List.mem_of_getElem? h1); simp at this
      · simp at h2
    refine ⟨undefId, .leaf, ?_, .leaf, ?_, by simp [BTree.ids]⟩
    · by_cases hpd : p < d.length
      · obtain ⟨start, tree, h1, h2, h4, _⟩ := h.tree p hpd
        simp only [TernTrie.push]
        rw [List.getElem?_append_left (by rw [h.len_fc]; exact hpd), h1]
        have : tree = .leaf := by
          cases tree with
          | leaf => rfl
          | node k _ _ =>
            obtain ⟨e, he⟩ := (h4 k).mp (by simp [BTree.ids])
            have := hnone _ (List.mem_of_getElem? he); simp at this
        rw [h2.start_ne.mpr this]
      · have : p = d.length := by simp at hp; omega
        simp [TernTrie.push, this, ← h.len_fc]
    · intro k
      constructor
      · simp [BTree.ids]
      · rintro ⟨e, he⟩; exact absurd he (hno k p e)

theorem TernR.insert {t : TernTrie} {d : Dict} (h : TernR t d) {p : Nat} (hp : p < d.length) (c : UInt8)
    (hf : d.find p c = none) (t' : TernTrie)
    (hfcl : t'.firstChild.length = d.length + 1) (hll : t'.left.length = d.length + 1)
    (hlr : t'.right.length = d.length + 1)
    (hl : t'.literal = t.literal ++ [c])
    (hnewfc : t'.firstChild[d.length]? = some undefId)
    (hfc : ∀ q, q ≠ p → q < d.length → t'.firstChild[q]? = t.firstChild[q]?)
    (hns : ∀ k : Nat, k < d.length → (∀ e : UInt8, d[k]? ≠ some (some p, e)) →
      t'.left[k]? = t.left[k]? ∧ t'.right[k]? = t.right[k]?)
    {start : Nat} {tree : BTree} (hst : t'.firstChild[p]? = some start) (htr : Tr t'.left t'.right start tree)
    (hmem : ∀ k : Nat, k ∈ tree.ids ↔ k = d.length ∨ ∃ e : UInt8, d[k]? = some (some p, e))
    (hsort : tree.ids.Pairwise fun i j => Dict.lit (d ++ [(some p, c)]) i < Dict.lit (d ++ [(some p, c)]) j) :
    TernR t' (d ++ [(some p, c)]) := by
  constructor
  · simp [hfcl]
  · simp [hll]
  · simp [hlr]
  · simp [hl, h.literal]
  · exact h.uniq.append_child hf
  · intro k q e hk
    rcases Dict.getElem?_append_child.mp hk with h1 | ⟨_, h2⟩
    · have := h.par k q e h1; simp; omega
    · simp at h2; simp; omega
  · intro q hq
    by_cases hqp : q = p
    · subst hqp
      refine ⟨start, tree, hst, htr, ?_, hsort⟩
      intro k
      rw [hmem]
      constructor
      · rintro (rfl | ⟨e, he⟩)
        · exact ⟨c, Dict.getElem?_append_child.mpr (Or.inr ⟨rfl, rfl⟩)⟩
        · exact ⟨e, Dict.getElem?_append_child.mpr (Or.inl he)⟩
      · rintro ⟨e, he⟩
        rcases Dict.getElem?_append_child.mp he with h1 | ⟨h1, _⟩
        · exact Or.inr ⟨e, h1⟩
        · exact Or.inl h1
    · by_cases hqd : q < d.length
      · obtain ⟨st, tr, h1, h2, h4, h5⟩ := h.tree q hqd
        have hlt := SibR.ids_lt h4
        have hk' : ∀ k ∈ tr.ids, t'.left[k]? = t.left[k]? ∧ t'.right[k]? = t.right[k]? := by
          intro k hk
          refine hns k (hlt k hk) ?_
          intro e he
          obtain ⟨e', he'⟩ := (h4 k).mp hk
          rw [he] at he'; simp at he'; exact hqp he'.1.symm
        refine ⟨st, tr, by rw [hfc q hqp hqd, h1], h2.congr ?_ ?_, ?_, ?_⟩
        · intro k hk x hx; rw [(hk' k hk).1, hx]
        · intro k hk x hx; rw [(hk' k hk).2, hx]
        · intro k
          rw [h4]
          constructor
          · rintro ⟨e, he⟩; exact ⟨e, Dict.getElem?_append_child.mpr (Or.inl he)⟩
          · rintro ⟨e, he⟩
            rcases Dict.getElem?_append_child.mp he with h1 | ⟨_, h2⟩
            · exact ⟨e, h1⟩
            · simp at h2; exact absurd h2.1 hqp
        · refine h5.imp_of_mem ?_
          intro i j hi hj hij
          rw [lit_append (hlt i hi), lit_append (hlt j hj)]; exact hij
      · have : q = d.length := by simp at hq; omega
        subst this
        refine ⟨undefId, .leaf, hnewfc, .leaf, ?_, by simp [BTree.ids]⟩
        intro k
        constructor
        · simp [BTree.ids]
        · rintro ⟨e, he⟩
          rcases Dict.getElem?_append_child.mp he with h1 | ⟨_, h2⟩
          · have := h.par k _ e h1; omega
          · simp at h2; exact absurd h2.1 hqp

theorem TernR.lit_get {t : TernTrie} {d : Dict} (h : TernR t d) {k : Nat} (hk : k < d.length) :
    t.literal[k]? = some (d.lit k) := by
  rw [h.literal, List.getElem?_map, List.getElem?_eq_getElem hk]
  simp [Dict.lit, hk]

theorem TernR.sim_hit {t : TernTrie} {d : Dict} (h : TernR t d) {p k : Nat} {c : UInt8} (hp : p < d.length)
    (hsz : d.length < undefId) (hf : d.find p c = some k) : t.findOrInsert p c = .ok (t, k, false) := by
  obtain ⟨start, tree, h1, h2, h4, h5⟩ := h.tree p hp
  have hk := Dict.find_some hf
  have hkm := (h4 k).mpr ⟨c, hk⟩
  have hne : tree ≠ .leaf := by rintro rfl; simp [BTree.ids] at hkm
  have hs : start ≠ undefId := fun e => hne (h2.start_ne.mp e)
  have hlt := SibR.ids_lt h4
  simp only [TernTrie.findOrInsert, vget_some h1, hs, if_false]
  rcases TernTrie.walk_spec t d c h.literal h.len_l h.len_r hsz h2 hne hlt h5 (t.firstChild.length + 1)
      (by have := nodup_length_le tree.ids d.length (pairwise_nodup h5) hlt; rw [h.len_fc]; omega) with
      ⟨j, hj, h6, h7⟩ | ⟨h6, _⟩
  · rw [h7]
    obtain ⟨e, he⟩ := (h4 j).mp hj
    have : e = c := by rw [← h6, lit_of he]
    subst this
    rw [h.uniq j k p e he hk]
  · exact absurd (lit_of hk) (h6 k hkm)

theorem TernR.sim_miss {t : TernTrie} {d : Dict} (h : TernR t d) {p : Nat} {c : UInt8} (hp : p < d.length)
    (hsz : d.length < undefId) (hf : d.find p c = none) :
    ∃ t', t.findOrInsert p c = .ok (t', d.length, true) ∧ TernR t' (d ++ [(some p, c)]) := by
  obtain ⟨start, tree, h1, h2, h4, h5⟩ := h.tree p hp
  have hlt := SibR.ids_lt h4
  have hfcg : ∀ q < d.length, (t.firstChild ++ [undefId])[q]? = t.firstChild[q]? := fun q hq =>
    List.getElem?_append_left (by rw [h.len_fc]; exact hq)
  have hmem' : ∀ (hc : ∀ k ∈ tree.ids, d.lit k ≠ c) (k : Nat), k ∈ (tree.ins d.lit c d.length).ids ↔
      k = d.length ∨ ∃ e : UInt8, d[k]? = some (some p, e) := by
    intro hc k; rw [BTree.mem_ins hc, h4]
  have hsort' : ∀ (hc : ∀ k ∈ tree.ids, d.lit k ≠ c), (tree.ins d.lit c d.length).ids.Pairwise fun i j =>
      Dict.lit (d ++ [(some p, c)]) i < Dict.lit (d ++ [(some p, c)]) j := fun hc =>
    BTree.pairwise_ins hc (fun k hk => lit_append (hlt k hk)) lit_append_self h5
  by_cases hs : start = undefId
  · have ht : tree = .leaf := h2.start_ne.mp hs
    subst ht
    have hno : ∀ k ∈ BTree.leaf.ids, d.lit k ≠ c := by simp [BTree.ids]
    refine ⟨_, by simp only [TernTrie.findOrInsert, vget_some h1, hs, if_true]; rw [h.len_fc], ?_⟩
    refine h.insert hp c hf _ (start := d.length) (tree := BTree.ins d.lit c d.length .leaf) ?_ ?_ ?_ ?_ ?_ ?_ ?_ ?_ ?_
      (hmem' hno) (hsort' hno)
    · simp [TernTrie.push, h.len_fc]
    · simp [TernTrie.push, h.len_l]
    · simp [TernTrie.push, h.len_r]
    · simp [TernTrie.push]
    · simp only [TernTrie.push]
      rw [List.getElem?_append_right (by simp [h.len_fc])]; simp [h.len_fc]
    · intro q hq hqd
      simp only [TernTrie.push]
      rw [List.getElem?_append_left (by simp [h.len_fc, hqd]), List.getElem?_set_ne (Ne.symm hq)]
    · intro k hk _
      simp only [TernTrie.push]
      rw [List.getElem?_append_left (by simp [h.len_l, hk]), List.getElem?_append_left (by simp [h.len_r, hk])]
      exact ⟨rfl, rfl⟩
    · simp only [TernTrie.push]
      rw [List.getElem?_append_left (by simp [h.len_fc, hp])]; simp [h.len_fc, hp]
    · simp only [TernTrie.push, BTree.ins]
      exact .node (by omega) (by rw [← h.len_l]; simp) (by rw [← h.len_r]; simp) .leaf .leaf
  · have hne : tree ≠ .leaf := fun e => hs (h2.start_ne.mpr e)
    simp only [TernTrie.findOrInsert, vget_some h1, hs, if_false]
    rcases TernTrie.walk_spec t d c h.literal h.len_l h.len_r hsz h2 hne hlt h5 (t.firstChild.length + 1)
        (by have := nodup_length_le tree.ids d.length (pairwise_nodup h5) hlt; rw [h.len_fc]; omega) with
        ⟨j, hj, h6, h7⟩ | ⟨h6, n, hn, ⟨h7, h8⟩ | ⟨h7, h8⟩⟩
    · obtain ⟨e, he⟩ := (h4 j).mp hj
      have : e = c := by rw [← h6, lit_of he]
      subst this
      exact absurd he (Dict.find_none hf j)
    all_goals
      rw [h7]
      refine ⟨_, by rw [h.len_fc], ?_⟩
      have hnk : ∀ k : Nat, (∀ e : UInt8, d[k]? ≠ some (some p, e)) → n ≠ k := by
        rintro k hk rfl
        obtain ⟨e, he⟩ := (h4 n).mp hn
        exact hk e he
      refine h.insert hp c hf _ (start := start) (tree := BTree.ins d.lit c d.length tree) ?_ ?_ ?_ ?_ ?_ ?_ ?_ ?_ ?_
        (hmem' h6) (hsort' h6)
      · simp [TernTrie.push, h.len_fc]
      · simp [TernTrie.push, h.len_l]
      · simp [TernTrie.push, h.len_r]
      · simp [TernTrie.push]
      · simp only [TernTrie.push]
        rw [List.getElem?_append_right (by simp [h.len_fc])]; simp [h.len_fc]
      · intro q _ hqd; exact hfcg q hqd
      · intro k hk hk2
        have := hnk k hk2
        simp only [TernTrie.push]
        rw [List.getElem?_append_left (by simp [h.len_l, hk]), List.getElem?_append_left (by simp [h.len_r, hk])]
        simp [List.getElem?_set_ne this]
      · simp only [TernTrie.push]; rw [hfcg p hp, h1]
      · exact h8

theorem ternaryTrie_sim : TrieSim ternaryTrie (fun t d _ => TernR t d) (fun _ _ _ => True) where
  empty := TernR.empty
  addRoot _ d c h hn _ := h.addRoot (fun e he => by
    obtain ⟨i, hi⟩ := List.mem_iff_getElem?.mp he; exact (hn i e hi).1) c
  getRoot _ _ _ h _ := ⟨rfl, h⟩
  size _ _ _ h := h.len_fc
  hit s _ _ _ _ h hp hs _ hf := ⟨s, h.sim_hit hp hs hf, h⟩
  miss _ _ _ _ h hp hs _ hf := h.sim_miss hp hs hf

theorem ternaryTrie_reset : TrieReset ternaryTrie (fun t d _ => TernR t d) where
  clear _ _ _ _ := TernR.empty
  any_cur _ _ _ _ h := h


/-! ## Hash tries -/

/-- The key under which `HashTrie` stores a dictionary entry. -/
def hkey (e : Option Nat × UInt8) : Nat × UInt8 := (e.1.getD 0, e.2)

def HashR (s : List (Nat × UInt8)) (d : Dict) : Prop :=
  s = d.map hkey ∧ ∀ (i : Nat) (c : UInt8), d[i]? = some (none, c) → c.toNat = i

/-- The query does not hit a root node by accident. -/
def HashOk (d : Dict) (p : Nat) (c : UInt8) : Prop := p = 0 → (none, c) ∉ d

theorem findIdx?_map_hkey {d : Dict} {p : Nat} {c : UInt8} (h : HashOk d p c) :
    (d.map hkey).findIdx? (· == (p, c)) = d.find p c := by
  rw [List.findIdx?_map, Dict.find]
  have : ∀ e ∈ d, ((· == (p, c)) ∘ hkey) e = (e == (some p, c)) := by
    rintro ⟨q, b⟩ he
    cases q with
    | none =>
      rw [Bool.eq_iff_iff]
      simp [hkey]
      rintro rfl rfl
      exact h rfl he
    | some q => rw [Bool.eq_iff_iff]; simp [hkey]
  clear h
  induction d with
  | nil => rfl
  | cons e d ih =>
    rw [List.findIdx?_cons, List.findIdx?_cons, this e (by simp), ih (fun x hx => this x (by simp [hx]))]

theorem hashTrie_sim (b : Bool) : TrieSim (hashTrie b) (fun s d _ => HashR s d) HashOk where
  empty := ⟨rfl, by simp⟩
  addRoot s d c h hd hc := by
    change List (Nat × UInt8) at s
    obtain ⟨h1, h2⟩ := h
    have hf : s.findIdx? (· == (0, c)) = none := by
      rw [List.findIdx?_eq_none_iff]
      intro x hx
      subst h1
      obtain ⟨e, he, rfl⟩ := List.mem_map.mp hx
      obtain ⟨i, hi⟩ := List.mem_iff_getElem?.mp he
      have h3 := hd i e hi
      have hil := (List.getElem?_eq_some_iff.mp hi).1
      simp only [hkey, beq_eq_false_iff_ne, ne_eq, Prod.mk.injEq, not_and]
      rintro _ rfl; omega
    refine ⟨?_, ?_⟩
    · simp only [hashTrie, tableInsert, hf]; simp [h1, hkey]
    · intro i e hi
      rcases Dict.getElem?_append_child.mp hi with h | ⟨h, h'⟩
      · exact h2 i e h
      · simp at h'; subst h'; omega
  getRoot _ _ _ h _ := ⟨rfl, h⟩
  size s d _ h := by obtain ⟨h1, _⟩ := h; subst h1; exact List.length_map ..
  hit s d p c k h hp _ hok hf := by
    change List (Nat × UInt8) at s
    have h1 := h.1
    refine ⟨s, ?_, h⟩
    simp only [hashTrie, tableInsert]
    have : s.findIdx? (· == (p, c)) = some k := by rw [h1, findIdx?_map_hkey hok, hf]
    rw [this]
  miss s d p c h hp _ hok hf := by
    change List (Nat × UInt8) at s
    have h1 := h.1
    refine ⟨s ++ [(p, c)], ?_, ?_, ?_⟩
    · simp only [hashTrie, tableInsert]
      have : s.findIdx? (· == (p, c)) = none := by rw [h1, findIdx?_map_hkey hok, hf]
      rw [this, h1, List.length_map]
    · simp [h1, hkey]
    · intro i e hi
      rcases Dict.getElem?_append_child.mp hi with h' | ⟨_, h'⟩
      · exact h.2 i e h'
      · simp at h'

theorem exthashTrie_reset : TrieReset (hashTrie true) (fun s d _ => HashR s d) where
  clear _ _ _ _ := ⟨rfl, by simp⟩
  any_cur _ _ _ _ h := h

/-! ## Paths -/

theorem Path.mono {d : Dict} {e : Option Nat × UInt8} {k : Nat} {s : List UInt8} (h : Path d k s) : Path (d ++ [e]) k s := by
  induction h with
  | root h => exact .root (Dict.getElem?_append_child.mpr (Or.inl h))
  | child h _ ih => exact .child (Dict.getElem?_append_child.mpr (Or.inl h)) ih

theorem Path.det {d : Dict} {k : Nat} {s t : List UInt8} (h : Path d k s) (h' : Path d k t) : s = t := by
  induction h generalizing t with
  | root h =>
    cases h' with
    | root h' => rw [h] at h'; simp at h'; simp [h']
    | child h' _ => rw [h] at h'; simp at h'
  | child h _ ih =>
    cases h' with
    | root h' => rw [h] at h'; simp at h'
    | child h' h2 =>
      rw [h] at h'; simp at h'
      obtain ⟨rfl, rfl⟩ := h'
      rw [ih h2]

theorem Path.lt {d : Dict} {k : Nat} {s : List UInt8} (h : Path d k s) : k < d.length := by
  cases h with
  | root h => exact (List.getElem?_eq_some_iff.mp h).1
  | child h _ => exact (List.getElem?_eq_some_iff.mp h).1

theorem Path.ne_nil {d : Dict} {k : Nat} {s : List UInt8} (h : Path d k s) : s ≠ [] := by
  cases h <;> simp

/-- Well-formed dictionaries: parents come first, children are unique, roots are at their character. -/
structure Dict.WF (d : Dict) : Prop where
  uniq : d.Uniq
  par : ∀ (k q : Nat) (e : UInt8), d[k]? = some (some q, e) → q < k
  roots : ∀ (k : Nat) (e : UInt8), d[k]? = some (none, e) → e.toNat = k

theorem Dict.WF.path {d : Dict} (h : d.WF) (k : Nat) (hk : k < d.length) : ∃ s, Path d k s := by
  induction k using Nat.strongRecOn with
  | ind k ih =>
    rcases he : d[k] with ⟨q, e⟩
    have hg : d[k]? = some (q, e) := by rw [List.getElem?_eq_getElem hk, he]
    cases q with
    | none => exact ⟨[e], .root hg⟩
    | some q =>
      have hq := h.par k q e hg
      obtain ⟨s, hs⟩ := ih q hq (by omega)
      exact ⟨s ++ [e], .child hg hs⟩

/-- Two nodes with the same string are equal. -/
theorem Dict.WF.path_inj {d : Dict} (h : d.WF) {i j : Nat} {s : List UInt8} (hi : Path d i s) (hj : Path d j s) : i = j := by
  induction hi generalizing j with
  | root h1 =>
    generalize hs : [_] = s at hj
    cases hj with
    | root h2 => simp at hs; subst hs; rw [← h.roots _ _ h1, ← h.roots _ _ h2]
    | @child _ p c s h2 h3 =>
      have := h3.ne_nil
      cases s with
      | nil => simp at this
      | cons a b => cases b <;> simp at hs
  | @child k p c s h1 h2 ih =>
    generalize hs : s ++ [c] = s' at hj
    cases hj with
    | root h3 =>
      have := h2.ne_nil
      cases s with
      | nil => simp at this
      | cons a b => cases b <;> simp at hs
    | @child _ q c' s' h3 h4 =>
      obtain ⟨rfl, hc⟩ := List.append_inj' hs rfl
      simp at hc; subst hc
      have := ih h4
      subst this
      exact h.uniq _ _ _ _ h1 h3

theorem Dict.WF.nil : Dict.WF [] := ⟨by simp [Dict.Uniq], by simp, by simp⟩

theorem Dict.WF.addRoot {d : Dict} (h : d.WF) {c : UInt8} (hc : c.toNat = d.length) : Dict.WF (d ++ [(none, c)]) := by
  refine ⟨h.uniq.append_root, ?_, ?_⟩
  · intro k q e hk
    rcases Dict.getElem?_append_child.mp hk with h1 | ⟨_, h2⟩
    · exact h.par k q e h1
    · simp at h2
  · intro k e hk
    rcases Dict.getElem?_append_child.mp hk with h1 | ⟨h1, h2⟩
    · exact h.roots k e h1
    · simp at h2; subst h2; omega

theorem Dict.WF.addChild {d : Dict} (h : d.WF) {p : Nat} {c : UInt8} (hp : p < d.length) (hf : d.find p c = none) :
    Dict.WF (d ++ [(some p, c)]) := by
  refine ⟨h.uniq.append_child hf, ?_, ?_⟩
  · intro k q e hk
    rcases Dict.getElem?_append_child.mp hk with h1 | ⟨h1, h2⟩
    · exact h.par k q e h1
    · simp at h2; omega
  · intro k e hk
    rcases Dict.getElem?_append_child.mp hk with h1 | ⟨h1, h2⟩
    · exact h.roots k e h1
    · simp at h2

/-! ## Rolling tries -/

/-- The part of `TrieSim` used after the root nodes have been added. -/
structure TrieStep (T : TrieImpl) (R : T.σ → Dict → Option Nat → Prop) (ok : Dict → Nat → UInt8 → Prop) : Prop where
  getRoot : ∀ s d c, R s d none → d[c.toNat]? = some (none, c) →
    (T.getRoot s c).2 = c.toNat ∧ R (T.getRoot s c).1 d (some c.toNat)
  size : ∀ s d cur, R s d cur → T.size s = d.length
  hit : ∀ s d p c k, R s d (some p) → p < d.length → d.length < undefId → ok d p c → d.find p c = some k →
    ∃ s', T.findOrInsert s p c = .ok (s', k, false) ∧ R s' d (some k)
  miss : ∀ s d p c, R s d (some p) → p < d.length → d.length < undefId → ok d p c → d.find p c = none →
    ∃ s', T.findOrInsert s p c = .ok (s', d.length, true) ∧ R s' (d ++ [(some p, c)]) none

theorem TrieSim.step {T : TrieImpl} {R : T.σ → Dict → Option Nat → Prop} {ok : Dict → Nat → UInt8 → Prop}
    (h : TrieSim T R ok) : TrieStep T R ok := ⟨h.getRoot, h.size, h.hit, h.miss⟩

structure RollR (H : Roller) (s : H.S × List H.κ) (d : Dict) (cur : Option Nat) : Prop where
  wf : d.WF
  len : s.2.length = d.length
  keys : ∀ (k : Nat) w, Path d k w → s.2[k]? = some (H.hash w)
  cur_none : cur = none → s.1 = H.init
  cur_some : ∀ p w, cur = some p → Path d p w → s.1 = w.foldl H.step H.init

/-- No collision with the path of an existing node. -/
def RollOk (H : Roller) (d : Dict) (p : Nat) (c : UInt8) : Prop :=
  ∀ k w v, Path d k w → Path d p v → H.hash w = H.hash (v ++ [c]) → w = v ++ [c]

theorem rollingTrie_step (H : Roller) : TrieStep (rollingTrie H) (RollR H) (RollOk H) where
  getRoot s d c h hd := by
    refine ⟨rfl, h.wf, h.len, h.keys, by simp, ?_⟩
    intro p w hp hw
    cases hp
    rw [hw.det (.root hd)]
    simp [rollingTrie, h.cur_none rfl]
  size _ _ _ h := h.len
  hit s d p c k h hp _ hok hf := by
    obtain ⟨w, hw⟩ := h.wf.path p hp
    have hs := h.cur_some p w rfl hw
    have hk : Path d k (w ++ [c]) := .child (Dict.find_some hf) hw
    have hst : H.step s.1 c = (w ++ [c]).foldl H.step H.init := by rw [hs]; simp
    have hfi : s.2.findIdx? (· == H.out (H.step s.1 c)) = some k := by
      rw [List.findIdx?_eq_some_iff_getElem]
      have hkl : k < s.2.length := by rw [h.len]; exact hk.lt
      have hkk := h.keys k _ hk
      refine ⟨hkl, ?_, ?_⟩
      · rw [List.getElem?_eq_getElem hkl] at hkk
        simp only [Option.some.injEq] at hkk
        rw [hkk, hst]; simp [Roller.hash]
      · intro j hj
        have hjl : j < s.2.length := by omega
        obtain ⟨v, hv⟩ := h.wf.path j (by rw [← h.len]; exact hjl)
        have hjk := h.keys j v hv
        rw [List.getElem?_eq_getElem hjl] at hjk
        simp only [Option.some.injEq] at hjk
        rw [hjk, hst]
        intro he
        have he := eq_of_beq he
        have := hok j v w hv hw he
        subst this
        have := h.wf.path_inj hv hk
        omega
    refine ⟨(H.step s.1 c, s.2), by simp only [rollingTrie, tableInsert, hfi], h.wf, h.len, h.keys, by simp, ?_⟩
    intro q v hq hv
    cases hq
    rw [hv.det hk]; exact hst
  miss s d p c h hp _ hok hf := by
    obtain ⟨w, hw⟩ := h.wf.path p hp
    have hs := h.cur_some p w rfl hw
    have hst : H.step s.1 c = (w ++ [c]).foldl H.step H.init := by rw [hs]; simp
    have hfi : s.2.findIdx? (· == H.out (H.step s.1 c)) = none := by
      rw [List.findIdx?_eq_none_iff]
      intro x hx
      obtain ⟨j, hj⟩ := List.mem_iff_getElem?.mp hx
      have hjl := (List.getElem?_eq_some_iff.mp hj).1
      obtain ⟨v, hv⟩ := h.wf.path j (by rw [← h.len]; exact hjl)
      have hjk := h.keys j v hv
      rw [hj] at hjk
      simp only [Option.some.injEq] at hjk
      rw [hjk, hst, beq_eq_false_iff_ne]
      intro he
      have := hok j v w hv hw he
      generalize hs : w ++ [c] = w' at this
      subst this
      cases hv with
      | root h3 =>
        have := hw.ne_nil
        cases w with
        | nil => simp at this
        | cons a b => cases b <;> simp at hs
      | @child _ q c' s' h3 h4 =>
        obtain ⟨rfl, hc⟩ := List.append_inj' hs rfl
        simp at hc; subst hc
        have := h.wf.path_inj hw h4
        subst this
        exact Dict.find_none hf j h3
    refine ⟨(H.init, s.2 ++ [H.out (H.step s.1 c)]), ?_, h.wf.addChild hp hf, by simp [h.len], ?_, fun _ => rfl, by simp⟩
    · simp only [rollingTrie, tableInsert, hfi, h.len]
    · intro k v hv
      have hwk : Path d k v ∨ (k = d.length ∧ v = w ++ [c]) := by
        have : ∀ k v, Path (d ++ [(some p, c)]) k v → k < d.length → Path d k v := by
          intro k v hv
          induction hv with
          | root h1 =>
            intro hk
            rcases Dict.getElem?_append_child.mp h1 with h1 | ⟨h1, h2⟩
            · exact .root h1
            · omega
          | child h1 h2 ih =>
            intro hk
            rcases Dict.getElem?_append_child.mp h1 with h1 | ⟨h1, _⟩
            · exact .child h1 (ih (by have := h.wf.par _ _ _ h1; omega))
            · omega
        cases hv with
        | root h1 =>
          rcases Dict.getElem?_append_child.mp h1 with h1 | ⟨h1, h2⟩
          · left; exact .root h1
          · simp at h2
        | child h1 h2 =>
          rcases Dict.getElem?_append_child.mp h1 with h1' | ⟨h1', h3⟩
          · left
            exact .child h1' (this _ _ h2 (by have := h.wf.par _ _ _ h1'; have := (List.getElem?_eq_some_iff.mp h1').1; omega))
          · simp at h3
            obtain ⟨rfl, rfl⟩ := h3
            right
            exact ⟨h1', by rw [(this _ _ h2 hp).det hw]⟩
      rcases hwk with h1 | ⟨h1, h2⟩
      · rw [List.getElem?_append_left (by rw [h.len]; exact h1.lt)]; exact h.keys k v h1
      · subst h1 h2
        rw [← h.len, hst]; simp [Roller.hash]

theorem rollingTrie_sim (H : Roller) (hroot : ∀ a b : UInt8, H.hash [a] = H.hash [b] → a = b) :
    TrieSim (rollingTrie H) (RollR H) (RollOk H) where
  empty := ⟨Dict.WF.nil, rfl, fun _ _ h => by have := h.lt; simp at this, fun _ => rfl, by simp⟩
  addRoot s d c h hd hc := by
    have h0 := h.cur_none rfl
    have hone : ∀ (k : Nat) w, Path d k w → ∃ a : UInt8, a.toNat = k ∧ w = [a] := by
      intro k w hw
      cases hw with
      | root h1 => exact ⟨_, (hd _ _ h1).2, rfl⟩
      | child h1 _ => have := (hd _ _ h1).1; simp at this
    have hf : s.2.findIdx? (· == H.out (H.step s.1 c)) = none := by
      rw [List.findIdx?_eq_none_iff]
      intro x hx
      obtain ⟨k, hk⟩ := List.mem_iff_getElem?.mp hx
      have hkl := (List.getElem?_eq_some_iff.mp hk).1
      obtain ⟨w, hw⟩ := h.wf.path k (by rw [← h.len]; exact hkl)
      have := h.keys k w hw
      rw [hk] at this
      obtain ⟨a, ha, rfl⟩ := hone k w hw
      simp only [Option.some.injEq] at this
      rw [this, h0, beq_eq_false_iff_ne]
      intro he
      have := hroot a c he
      rw [← h.len] at hc; subst this; omega
    refine ⟨h.wf.addRoot hc, ?_, ?_, fun _ => rfl, by simp⟩
    · simp only [rollingTrie, tableInsert, hf]; simp [h.len]
    · intro k w hw
      simp only [rollingTrie, tableInsert, hf]
      have hwk : Path d k w ∨ (k = d.length ∧ w = [c]) := by
        cases hw with
        | root h1 =>
          rcases Dict.getElem?_append_child.mp h1 with h1 | ⟨h1, h2⟩
          · left; exact .root h1
          · simp at h2; right; exact ⟨h1, by rw [h2]⟩
        | child h1 h2 =>
          rcases Dict.getElem?_append_child.mp h1 with h1 | ⟨h1, h2⟩
          · have := (hd _ _ h1).1; simp at this
          · simp at h2
      rcases hwk with h1 | ⟨h1, h2⟩
      · rw [List.getElem?_append_left (by rw [h.len]; exact h1.lt)]; exact h.keys k w h1
      · subst h1 h2
        rw [← h.len]; simp [h0, Roller.hash]
  getRoot := (rollingTrie_step H).getRoot
  size := (rollingTrie_step H).size
  hit := (rollingTrie_step H).hit
  miss := (rollingTrie_step H).miss


end Tdc
