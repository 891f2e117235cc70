import Verif.Model.Basic

/-!
# LZ78 tries: interface, and the pointer based implementations

compressors/lz78/{LZ78Trie,BinaryTrie,BinarySortedTrie,TernaryTrie}.hpp
-/

namespace Tdc

/-- compressors/lz78/LZ78Trie.hpp:14 `undef_id`, the largest `factorid_t` (`uint32_t`) -/
def undefId : Nat := 2 ^ 32 - 1

/-- The trie interface of compressors/lz78/LZ78Trie.hpp:40-100 as used by the compressors.
Nodes are represented by their ids; `findOrInsert` returns the id and `is_new`.
`empty` is the state after construction. `getRoot` may change state (rolling hash tries). -/
structure TrieImpl where
  σ : Type
  empty : σ
  addRoot : σ → UInt8 → σ
  getRoot : σ → UInt8 → σ × Nat
  findOrInsert : σ → Nat → UInt8 → Res (σ × Nat × Bool)
  size : σ → Nat
  clear : σ → σ

/-- `vector[i]`, out of bounds is undefined behaviour. -/
def vget {α : Type} (l : List α) (i : Nat) : Res α :=
  match l[i]? with
  | some a => .ok a
  | none => .error .ub

/-! ## BinaryTrie -/

/-- compressors/lz78/BinaryTrie.hpp:16-18 (and BinarySortedTrie.hpp:14-16): three parallel vectors. -/
structure SibTrie where
  firstChild : List Nat
  nextSibling : List Nat
  literal : List UInt8
deriving DecidableEq, Repr

/-- compressors/lz78/BinaryTrie.hpp:55-61, BinarySortedTrie.hpp:38-44 `add_rootnode`, and :103-105 / :57-62 the
`push_back`s for a new node. (Capacity management has no observable effect and is not modelled.) -/
def SibTrie.push (t : SibTrie) (fc ns : Nat) (c : UInt8) : SibTrie :=
  ⟨t.firstChild ++ [fc], t.nextSibling ++ [ns], t.literal ++ [c]⟩

/-- compressors/lz78/BinaryTrie.hpp:84-91: walk the sibling chain. Result: found node, or the last node of the
chain (whose `next_sibling` gets set). Fuel bounds the chain length. -/
def SibTrie.walk (t : SibTrie) (c : UInt8) : Nat → Nat → Res (Nat × Bool)
  | 0, _ => .error .loop
  | fuel + 1, node =>
    match vget t.literal node with
    | .error e => .error e
    | .ok l =>
      if c = l then .ok (node, true)
      else
        match vget t.nextSibling node with
        | .error e => .error e
        | .ok ns => if ns = undefId then .ok (node, false) else t.walk c fuel ns

/-- compressors/lz78/BinaryTrie.hpp:73-107 `find_or_insert` -/
def SibTrie.findOrInsert (t : SibTrie) (parent : Nat) (c : UInt8) : Res (SibTrie × Nat × Bool) :=
  let newleaf := t.firstChild.length
  match vget t.firstChild parent with
  | .error e => .error e
  | .ok fc =>
    if fc = undefId then
      .ok (({ t with firstChild := t.firstChild.set parent newleaf }).push undefId undefId c, newleaf, true)
    else
      match t.walk c (t.firstChild.length + 1) fc with
      | .error e => .error e
      | .ok (node, true) => .ok (t, node, false)
      | .ok (node, false) =>
        .ok (({ t with nextSibling := t.nextSibling.set node newleaf }).push undefId undefId c, newleaf, true)

/-- compressors/lz78/BinaryTrie.hpp -/
def binaryTrie : TrieImpl where
  σ := SibTrie
  empty := ⟨[], [], []⟩
  addRoot t c := t.push undefId undefId c
  getRoot t c := (t, c.toNat)                      -- :63-65
  findOrInsert := SibTrie.findOrInsert
  size t := t.firstChild.length                    -- :109-111
  clear _ := ⟨[], [], []⟩                          -- :67-71

/-! ## BinarySortedTrie -/

/-- compressors/lz78/BinarySortedTrie.hpp:80-91: walk the sorted sibling chain. Result: found node, or the node after
which to insert together with its successor (`undefId` if none). -/
def SibTrie.walkSorted (t : SibTrie) (c : UInt8) : Nat → Nat → Res (Nat ⊕ Nat × Nat)
  | 0, _ => .error .loop
  | fuel + 1, node =>
    match vget t.literal node with
    | .error e => .error e
    | .ok l =>
      if c = l then .ok (.inl node)
      else
        match vget t.nextSibling node with
        | .error e => .error e
        | .ok ns =>
          if ns = undefId then .ok (.inr (node, undefId))
          else
            match vget t.literal ns with
            | .error e => .error e
            | .ok l' => if l' > c then .ok (.inr (node, ns)) else t.walkSorted c fuel ns

/-- compressors/lz78/BinarySortedTrie.hpp:64-104 `find_or_insert` -/
def SibTrie.findOrInsertSorted (t : SibTrie) (parent : Nat) (c : UInt8) : Res (SibTrie × Nat × Bool) :=
  let newleaf := t.firstChild.length
  match vget t.firstChild parent with
  | .error e => .error e
  | .ok node =>
    if node = undefId then
      .ok (({ t with firstChild := t.firstChild.set parent newleaf }).push undefId undefId c, newleaf, true)
    else
      match vget t.literal node with
      | .error e => .error e
      | .ok l =>
        if l > c then
          .ok (({ t with firstChild := t.firstChild.set parent newleaf }).push undefId node c, newleaf, true)
        else
          match t.walkSorted c (t.firstChild.length + 1) node with
          | .error e => .error e
          | .ok (.inl n) => .ok (t, n, false)
          | .ok (.inr (n, ns)) =>
            .ok (({ t with nextSibling := t.nextSibling.set n newleaf }).push undefId ns c, newleaf, true)

/-- compressors/lz78/BinarySortedTrie.hpp -/
def binarySortedTrie : TrieImpl where
  σ := SibTrie
  empty := ⟨[], [], []⟩
  addRoot t c := t.push undefId undefId c
  getRoot t c := (t, c.toNat)
  findOrInsert := SibTrie.findOrInsertSorted
  size t := t.firstChild.length
  clear _ := ⟨[], [], []⟩

/-! ## TernaryTrie -/

/-- compressors/lz78/TernaryTrie.hpp:22-25 -/
structure TernTrie where
  firstChild : List Nat
  left : List Nat
  right : List Nat
  literal : List UInt8
deriving DecidableEq, Repr

/-- compressors/lz78/TernaryTrie.hpp:65-72, 131-134 -/
def TernTrie.push (t : TernTrie) (c : UInt8) : TernTrie :=
  ⟨t.firstChild ++ [undefId], t.left ++ [undefId], t.right ++ [undefId], t.literal ++ [c]⟩

/-- Where the search in the sibling search tree ended. -/
inductive TernPos where
  | found (node : Nat) | insLeft (node : Nat) | insRight (node : Nat)
deriving DecidableEq, Repr

/-- compressors/lz78/TernaryTrie.hpp:97-117 -/
def TernTrie.walk (t : TernTrie) (c : UInt8) : Nat → Nat → Res TernPos
  | 0, _ => .error .loop
  | fuel + 1, node =>
    match vget t.literal node with
    | .error e => .error e
    | .ok l =>
      if c < l then
        match vget t.left node with
        | .error e => .error e
        | .ok n => if n = undefId then .ok (.insLeft node) else t.walk c fuel n
      else if c > l then
        match vget t.right node with
        | .error e => .error e
        | .ok n => if n = undefId then .ok (.insRight node) else t.walk c fuel n
      else .ok (.found node)

/-- compressors/lz78/TernaryTrie.hpp:85-136 `find_or_insert` -/
def TernTrie.findOrInsert (t : TernTrie) (parent : Nat) (c : UInt8) : Res (TernTrie × Nat × Bool) :=
  let newleaf := t.firstChild.length
  match vget t.firstChild parent with
  | .error e => .error e
  | .ok fc =>
    if fc = undefId then
      .ok (({ t with firstChild := t.firstChild.set parent newleaf }).push c, newleaf, true)
    else
      match t.walk c (t.firstChild.length + 1) fc with
      | .error e => .error e
      | .ok (.found node) => .ok (t, node, false)
      | .ok (.insLeft node) => .ok (({ t with left := t.left.set node newleaf }).push c, newleaf, true)
      | .ok (.insRight node) => .ok (({ t with right := t.right.set node newleaf }).push c, newleaf, true)

/-- compressors/lz78/TernaryTrie.hpp -/
def ternaryTrie : TrieImpl where
  σ := TernTrie
  empty := ⟨[], [], [], []⟩
  addRoot t c := t.push c
  getRoot t c := (t, c.toNat)
  findOrInsert := TernTrie.findOrInsert
  size t := t.firstChild.length
  clear _ := ⟨[], [], [], []⟩

/-! ## HashTrie, ExtHashTrie

The hash table is represented by the list of its keys in insertion order: the value stored for a key is the number
of entries at the time it was inserted, i.e. its position (that the linear probing table behaves as a map is
property C32; `std::unordered_map` is trusted). `create_node(id, c) = (id << 8) + c` (squeeze_node.hpp:28-30)
is represented by the pair, which is faithful for `id < 2^32`. -/

/-- `m_table.insert({key, size()})`: value for the key and whether it was inserted. -/
def tableInsert {κ : Type} [BEq κ] (keys : List κ) (k : κ) : List κ × Nat × Bool :=
  match keys.findIdx? (· == k) with
  | some i => (keys, i, false)
  | none => (keys ++ [k], keys.length, true)

/-- compressors/lz78/HashTrie.hpp:49-85 (`clear()` has no effect, :63-66) and
compressors/lz78/ExtHashTrie.hpp:61-90 (`clear()` empties the table). Root nodes are stored under the key of a child
of node 0. -/
def hashTrie (clears : Bool) : TrieImpl where
  σ := List (Nat × UInt8)
  empty := []
  addRoot s c := (tableInsert s (0, c)).1
  getRoot s c := (s, c.toNat)
  findOrInsert s p c := .ok (tableInsert s (p, c))
  size s := s.length
  clear s := if clears then [] else s

/-! ## RollingTrie -/

/-- A rolling hash: `clear()`, `+= c`, `()` (util/rollinghash). -/
structure Roller where
  S : Type
  κ : Type
  init : S
  step : S → UInt8 → S
  out : S → κ
  [beq : BEq κ]
  [lawful : LawfulBEq κ]

attribute [instance] Roller.beq Roller.lawful

/-- the hash of a whole string -/
def Roller.hash (H : Roller) (s : List UInt8) : H.κ := H.out (s.foldl H.step H.init)

/-- compressors/lz78/RollingTrie.hpp:59-87: the parent argument is ignored, a node is identified by the rolling hash of
its path. State: roller state and table keys. -/
def rollingTrie (H : Roller) : TrieImpl where
  σ := H.S × List H.κ
  empty := (H.init, [])
  addRoot s c := (H.init, (tableInsert s.2 (H.out (H.step s.1 c))).1)      -- :59-63
  getRoot s c := ((H.step s.1 c, s.2), c.toNat)                            -- :65-68
  findOrInsert s _ c :=                                                    -- :74-83
    let st := H.step s.1 c
    match tableInsert s.2 (H.out st) with
    | (t, i, true) => .ok ((H.init, t), i, true)
    | (t, i, false) => .ok ((st, t), i, false)
  size s := s.2.length
  clear s := s                                                             -- :70-72

/-! ## Specification: a dictionary of (parent, character) pairs

Ids are positions; a root has no parent. -/

/-- The abstract dictionary. -/
abbrev Dict := List (Option Nat × UInt8)

/-- Look up the id of the child of `p` along `c`. -/
def Dict.find (d : Dict) (p : Nat) (c : UInt8) : Option Nat := d.findIdx? (· == (some p, c))

/-- `T` implements the dictionary. `R s d cur` relates a trie state to a dictionary; `cur` is the node the
caller currently stands on (only tries that keep a rolling state depend on it). Root nodes must be added before
anything else and in the order 0, 1, 2, … (as both compressors do). `ok d p c` restricts the queries for which the
implementation is right (`True` for the pointer based tries). -/
structure TrieSim (T : TrieImpl) (R : T.σ → Dict → Option Nat → Prop) (ok : Dict → Nat → UInt8 → Prop) : Prop where
  empty : R T.empty [] none
  addRoot : ∀ s d c, R s d none → (∀ (i : Nat) e, d[i]? = some e → e.1 = none ∧ e.2.toNat = i) → c.toNat = d.length →
    R (T.addRoot s c) (d ++ [(none, c)]) none
  getRoot : ∀ s d c, R s d none → d[c.toNat]? = some (none, c) →
    (T.getRoot s c).2 = c.toNat ∧ R (T.getRoot s c).1 d (some c.toNat)
  size : ∀ s d cur, R s d cur → T.size s = d.length
  hit : ∀ s d p c k, R s d (some p) → p < d.length → d.length < undefId → ok d p c → d.find p c = some k →
    ∃ s', T.findOrInsert s p c = .ok (s', k, false) ∧ R s' d (some k)
  miss : ∀ s d p c, R s d (some p) → p < d.length → d.length < undefId → ok d p c → d.find p c = none →
    ∃ s', T.findOrInsert s p c = .ok (s', d.length, true) ∧ R s' (d ++ [(some p, c)]) none

/-- Additionally, `clear()` empties the trie, and the relation does not depend on the current node (needed for
dictionary resets). -/
structure TrieReset (T : TrieImpl) (R : T.σ → Dict → Option Nat → Prop) : Prop where
  clear : ∀ s d cur, R s d cur → R (T.clear s) [] none
  any_cur : ∀ s d cur cur', R s d cur → R s d cur'

/-- `Path d k s`: node `k` of the dictionary spells the string `s` (including the character of its root). -/
inductive Path (d : Dict) : Nat → List UInt8 → Prop
  | root {k : Nat} {c : UInt8} : d[k]? = some (none, c) → Path d k [c]
  | child {k p : Nat} {c : UInt8} {s : List UInt8} : d[k]? = some (some p, c) → Path d p s → Path d k (s ++ [c])

end Tdc
