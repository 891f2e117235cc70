import Verif.Lemmas.Trie

/-!
# Property C13: LZ78 tries behave as a map
-/

namespace Tdc

/-- A history of `find_or_insert(parent, c)` calls on a trie; the results (id, is_new). -/
def TrieImpl.run (T : TrieImpl) : T.σ → List (Nat × UInt8) → Res (List (Nat × Bool) × T.σ)
  | s, [] => .ok ([], s)
  | s, (p, c) :: ops =>
    match T.findOrInsert s p c with
    | .error e => .error e
    | .ok (s, id, new) =>
      match T.run s ops with
      | .error e => .error e
      | .ok (rs, s) => .ok ((id, new) :: rs, s)

/-- `add_rootnode(0), …, add_rootnode(r - 1)` -/
def TrieImpl.addRoots (T : TrieImpl) (s : T.σ) (r : Nat) : T.σ :=
  (List.range r).foldl (fun s i => T.addRoot s (UInt8.ofNat i)) s

/-- Specification: entries are (parent, character); a known pair is answered with its position, an unknown one is
appended and is answered with the next unused number. -/
def dictRun : Dict → List (Nat × UInt8) → List (Nat × Bool) × Dict
  | d, [] => ([], d)
  | d, (p, c) :: ops =>
    match d.find p c with
    | some k => let (rs, d) := dictRun d ops; ((k, false) :: rs, d)
    | none => let (rs, d') := dictRun (d ++ [(some p, c)]) ops; ((d.length, true) :: rs, d')

/-- The dictionary with `r` root nodes. -/
def rootDict (r : Nat) : Dict := (List.range r).map fun i => (none, UInt8.ofNat i)

/-- Legal history: the parent of every query exists, and ids stay below `undef_id`. -/
def LegalOps : Dict → List (Nat × UInt8) → Prop
  | _, [] => True
  | d, (p, c) :: ops => p < d.length ∧ d.length < undefId ∧
      LegalOps (match d.find p c with | some _ => d | none => d ++ [(some p, c)]) ops

theorem rootDict_succ (r : Nat) : rootDict (r + 1) = rootDict r ++ [(none, UInt8.ofNat r)] := by
  simp [rootDict, List.range_succ]

theorem rootDict_get (r : Nat) (hr : r ≤ 256) (i : Nat) (e : Option Nat × UInt8) (h : (rootDict r)[i]? = some e) :
    e.1 = none ∧ e.2.toNat = i := by
  simp only [rootDict, List.getElem?_map, Option.map_eq_some_iff] at h
  obtain ⟨a, ha, rfl⟩ := h
  have := List.getElem?_eq_some_iff.mp ha
  obtain ⟨h1, h2⟩ := this
  simp at h1 h2
  subst h2
  refine ⟨rfl, ?_⟩
  simp only [UInt8.toNat_ofNat']
  omega

theorem TrieSim.addRoots {T : TrieImpl} {R : T.σ → Dict → Option Nat → Prop} {ok : Dict → Nat → UInt8 → Prop}
    (sim : TrieSim T R ok) (s : T.σ) (hs : R s [] none) (r : Nat) (hr : r ≤ 256) :
    R (T.addRoots s r) (rootDict r) none := by
  induction r with
  | zero => simpa [TrieImpl.addRoots, rootDict] using hs
  | succ r ih =>
    rw [rootDict_succ]
    have h := sim.addRoot _ (rootDict r) (UInt8.ofNat r) (ih (by omega)) (rootDict_get r (by omega))
      (by simp [rootDict]; omega)
    simpa [TrieImpl.addRoots, List.range_succ] using h

theorem TrieSim.run {T : TrieImpl} {R : T.σ → Dict → Option Nat → Prop}
    (sim : TrieSim T R (fun _ _ _ => True)) (rst : TrieReset T R) (s : T.σ) (d : Dict) (hs : R s d none)
    (ops : List (Nat × UInt8)) (hl : LegalOps d ops) :
    ∃ s', T.run s ops = .ok ((dictRun d ops).1, s') ∧ T.size s' = (dictRun d ops).2.length := by
  induction ops generalizing s d with
  | nil => exact ⟨s, rfl, sim.size _ _ _ hs⟩
  | cons op ops ih =>
    obtain ⟨p, c⟩ := op
    obtain ⟨h1, h2, h3⟩ := hl
    have hs' := rst.any_cur _ _ _ (some p) hs
    cases hf : d.find p c with
    | some k =>
      rw [hf] at h3
      obtain ⟨s1, e1, e2⟩ := sim.hit s d p c k hs' h1 h2 trivial hf
      obtain ⟨s2, e3, e4⟩ := ih s1 d (rst.any_cur _ _ _ none e2) h3
      exact ⟨s2, by simp [TrieImpl.run, e1, e3, dictRun, hf], by simpa [dictRun, hf] using e4⟩
    | none =>
      rw [hf] at h3
      obtain ⟨s1, e1, e2⟩ := sim.miss s d p c hs' h1 h2 trivial hf
      obtain ⟨s2, e3, e4⟩ := ih s1 _ e2 h3
      exact ⟨s2, by simp [TrieImpl.run, e1, e3, dictRun, hf], by simpa [dictRun, hf] using e4⟩

/-- The pointer based tries. -/
inductive PtrTrie where | binary | binarySorted | ternary
deriving DecidableEq, Repr

/-- name → implementation -/
def PtrTrie.impl : PtrTrie → TrieImpl
  | .binary => binaryTrie | .binarySorted => binarySortedTrie | .ternary => ternaryTrie

theorem PtrTrie.exists_sim (n : PtrTrie) : ∃ R, TrieSim n.impl R (fun _ _ _ => True) ∧ TrieReset n.impl R := by
  cases n
  · exact ⟨_, binaryTrie_sim, binaryTrie_reset⟩
  · exact ⟨_, binarySortedTrie_sim, binarySortedTrie_reset⟩
  · exact ⟨_, ternaryTrie_sim, ternaryTrie_reset⟩

/-- **C13 (pointer based tries).** After any number of root nodes, the answers to any legal history of
`find_or_insert` calls are those of the reference dictionary, so all three tries agree; and `size()` is the number of
entries. The same holds again after `clear()`, whatever happened before. -/
theorem trie_is_map (n : PtrTrie) (r : Nat) (hr : r ≤ 256) (ops : List (Nat × UInt8))
    (hl : LegalOps (rootDict r) ops) :
    (∃ s', n.impl.run (n.impl.addRoots n.impl.empty r) ops = .ok ((dictRun (rootDict r) ops).1, s') ∧
      n.impl.size s' = (dictRun (rootDict r) ops).2.length) ∧
    (∀ ops' rs s, n.impl.run (n.impl.addRoots n.impl.empty r) ops' = .ok (rs, s) → LegalOps (rootDict r) ops' →
      ∃ s', n.impl.run (n.impl.addRoots (n.impl.clear s) r) ops = .ok ((dictRun (rootDict r) ops).1, s')) := by
  obtain ⟨R, sim, rst⟩ := n.exists_sim
  refine ⟨sim.run rst _ _ (sim.addRoots _ sim.empty r hr) ops hl, ?_⟩
  intro ops' rs s hrun _
  have hc : n.impl.clear s = n.impl.empty := by cases n <;> rfl
  rw [hc]
  obtain ⟨s', h, _⟩ := sim.run rst _ _ (sim.addRoots _ sim.empty r hr) ops hl
  exact ⟨s', h⟩

example : LegalOps (rootDict 1) [(0, 97), (0, 98), (1, 97), (0, 97), (3, 5)] := by
  simp only [LegalOps]; decide
example : (dictRun (rootDict 1) [(0, 97), (0, 98), (1, 97), (0, 97), (3, 5)]).1
    = [(1, true), (2, true), (3, true), (1, false), (4, true)] := by decide

/-- The reference dictionary does what C13 says: a query answered `(k, true)` gets the next unused id and the pair was
not queried before; a query answered `(k, false)` gets the id that the pair got earlier. -/
theorem dictRun_spec (r : Nat) (ops : List (Nat × UInt8)) (i : Nat) (p : Nat) (c : UInt8)
    (hi : ops[i]? = some (p, c)) :
    (((p, c) ∉ ops.take i → ∃ k, (dictRun (rootDict r) ops).1[i]? = some (k, true) ∧
        k = r + ((dictRun (rootDict r) ops).1.take i).countP (·.2))) ∧
    ((p, c) ∈ ops.take i → ∃ k j, j < i ∧ ops[j]? = some (p, c) ∧
        (dictRun (rootDict r) ops).1[j]? = some (k, true) ∧ (dictRun (rootDict r) ops).1[i]? = some (k, false)) := by
  have hlen : (rootDict r).length = r := by simp [rootDict]
  -- generalise over the dictionary
  have main : ∀ (ops : List (Nat × UInt8)) (d : Dict) (_hu : d.Uniq) (i : Nat), ops[i]? = some (p, c) →
      (d.find p c = none → (p, c) ∉ ops.take i → (dictRun d ops).1[i]? =
        some (d.length + ((dictRun d ops).1.take i).countP (·.2), true)) ∧
      (∀ k, d.find p c = some k → (dictRun d ops).1[i]? = some (k, false)) ∧
      (d.find p c = none → (p, c) ∈ ops.take i → ∃ k j, j < i ∧ ops[j]? = some (p, c) ∧
        (dictRun d ops).1[j]? = some (k, true) ∧ (dictRun d ops).1[i]? = some (k, false)) := by
    intro ops
    induction ops with
    | nil => intro d _ i h; simp at h
    | cons op ops ih =>
      obtain ⟨q, e⟩ := op
      intro d hu i h
      have find_app : ∀ (x : Nat × UInt8), Dict.find (d ++ [(some x.1, x.2)]) p c =
          (d.find p c).or (if (p, c) = x then some d.length else none) := by
        rintro ⟨x, y⟩
        simp only [Dict.find, List.findIdx?_append, List.findIdx?_cons, List.findIdx?_nil, Option.map_if]
        congr 1
        by_cases hx : (p, c) = (x, y)
        · simp at hx; obtain ⟨rfl, rfl⟩ := hx; simp
        · have : ¬ ((some x, y) : Option Nat × UInt8) = (some p, c) := by
            intro h; simp at h hx; exact hx h.1.symm h.2.symm
          simp [hx, this]
      cases i with
      | zero =>
        simp at h; obtain ⟨rfl, rfl⟩ := h
        refine ⟨?_, ?_, ?_⟩
        · intro hf _; simp [dictRun, hf]
        · intro k hf; simp [dictRun, hf]
        · intro _ hm; simp at hm
      | succ i =>
        simp at h
        cases hf : d.find q e with
        | some k0 =>
          obtain ⟨i1, i2, i3⟩ := ih d hu i h
          simp only [dictRun, hf]
          refine ⟨?_, ?_, ?_⟩
          · intro h1 h2
            simp at h2
            simp; exact i1 h1 h2.2
          · intro k hk; simpa using i2 k hk
          · intro h1 h2
            have hne : (p, c) ≠ (q, e) := by rintro ⟨⟩; rw [h1] at hf; simp at hf
            simp only [List.take_succ_cons, List.mem_cons, hne, false_or] at h2
            obtain ⟨k, j, a1, a2, a3, a4⟩ := i3 h1 h2
            exact ⟨k, j + 1, by omega, by simpa using a2, by simpa using a3, by simpa using a4⟩
        | none =>
          obtain ⟨i1, i2, i3⟩ := ih _ (hu.append_child hf) i h
          have hfa := find_app (q, e)
          simp only [dictRun, hf]
          refine ⟨?_, ?_, ?_⟩
          · intro h1 h2
            simp only [List.take_succ_cons, List.mem_cons, not_or] at h2
            rw [h1, if_neg h2.1] at hfa
            have := i1 hfa h2.2
            simp at this ⊢
            rw [this]; congr 2; omega
          · intro k hk
            rw [hk] at hfa
            simpa using i2 k hfa
          · intro h1 h2
            by_cases hne : (p, c) = (q, e)
            · rw [h1, if_pos hne] at hfa
              have := i2 _ hfa
              refine ⟨d.length, 0, by omega, ?_, ?_, ?_⟩
              · simp [hne]
              · simp
              · simpa using this
            · rw [h1, if_neg hne] at hfa
              simp only [List.take_succ_cons, List.mem_cons, hne, false_or] at h2
              obtain ⟨k, j, a1, a2, a3, a4⟩ := i3 hfa h2
              exact ⟨k, j + 1, by omega, by simpa using a2, by simpa using a3, by simpa using a4⟩
  have huniq : (rootDict r).Uniq := by
    intro i j p c h
    simp only [rootDict, List.getElem?_map, Option.map_eq_some_iff] at h
    obtain ⟨a, _, ha⟩ := h; simp at ha
  have hnone : (rootDict r).find p c = none := by
    cases hf : (rootDict r).find p c with
    | none => rfl
    | some k =>
      have := Dict.find_some hf
      simp only [rootDict, List.getElem?_map, Option.map_eq_some_iff] at this
      obtain ⟨a, _, ha⟩ := this; simp at ha
  obtain ⟨h1, _, h3⟩ := main ops (rootDict r) huniq i hi
  refine ⟨fun h => ⟨_, h1 hnone h, by rw [hlen]⟩, fun h => h3 hnone h⟩

/-- **C13 (negation for the hash tries).** `HashTrie` and `ExtHashTrie` store root nodes under the key of a child of node
0: in the dictionary of LZ78 (one root) the very first query `(0, 0)` is answered "known, id 0". -/
theorem hash_trie_not_map (clears : Bool) :
    ∃ s, (hashTrie clears).run ((hashTrie clears).addRoots (hashTrie clears).empty 1) [(0, 0)] = .ok ([(0, false)], s) ∧
      (dictRun (rootDict 1) [(0, 0)]).1 = [(1, true)] := by
  refine ⟨[(0, 0)], ?_, by decide⟩
  rfl

/-- **C13 (hash tries, partial).** `HashTrie` and `ExtHashTrie` answer like the reference dictionary for every
history that never asks for a child of node 0 along the character of a root node. -/
theorem hash_trie_is_map_partial (clears : Bool) (r : Nat) (hr : r ≤ 256) (ops : List (Nat × UInt8))
    (hl : LegalOps (rootDict r) ops) (hok : ∀ op ∈ ops, op.1 = 0 → r ≤ op.2.toNat) :
    ∃ s', (hashTrie clears).run ((hashTrie clears).addRoots (hashTrie clears).empty r) ops
      = .ok ((dictRun (rootDict r) ops).1, s') := by
  have sim := hashTrie_sim clears
  have main : ∀ (ops : List (Nat × UInt8)) (s : List (Nat × UInt8)) (d : Dict), HashR s d → LegalOps d ops →
      (∀ op ∈ ops, op.1 = 0 → r ≤ op.2.toNat) → (∀ c : UInt8, (none, c) ∈ d → c.toNat < r) →
      ∃ s', (hashTrie clears).run s ops = .ok ((dictRun d ops).1, s') := by
    intro ops
    induction ops with
    | nil => intro s d _ _ _ _; exact ⟨s, rfl⟩
    | cons op ops ih =>
      obtain ⟨p, c⟩ := op
      intro s d hs hl hok hroot
      obtain ⟨h1, h2, h3⟩ := hl
      have hk : HashOk d p c := fun hp hm => by
        have := hok (p, c) (by simp) hp; have := hroot c hm; simp at *; omega
      cases hf : d.find p c with
      | some k =>
        rw [hf] at h3
        obtain ⟨s1, e1, e2⟩ := sim.hit s d p c k hs h1 h2 hk hf
        obtain ⟨s2, e3⟩ := ih s1 d e2 h3 (fun o ho => hok o (by simp [ho])) hroot
        exact ⟨s2, by simp [TrieImpl.run, e1, e3, dictRun, hf]⟩
      | none =>
        rw [hf] at h3
        obtain ⟨s1, e1, e2⟩ := sim.miss s d p c hs h1 h2 hk hf
        obtain ⟨s2, e3⟩ := ih s1 _ e2 h3 (fun o ho => hok o (by simp [ho])) (by simpa using hroot)
        exact ⟨s2, by simp [TrieImpl.run, e1, e3, dictRun, hf]⟩
  refine main ops _ _ (sim.addRoots _ sim.empty r hr) hl hok ?_
  intro c hc
  obtain ⟨i, hi⟩ := List.mem_iff_getElem?.mp hc
  have := (rootDict_get r hr i _ hi).2
  have hl := (List.getElem?_eq_some_iff.mp hi).1
  simp [rootDict] at this hl; omega

example : LegalOps (rootDict 1) [(0, 97), (1, 0), (0, 98)] ∧
    ∀ op ∈ [((0, 97) : Nat × UInt8), (1, 0), (0, 98)], op.1 = 0 → 1 ≤ op.2.toNat := by
  refine ⟨?_, by decide⟩
  simp only [LegalOps]; decide

end Tdc
