import Verif.Model.HashMap
import Verif.Model.CompactHash

/-!
# The hash tries on their tables

compressors/lz78/{HashTrie,RollingTrie,HashTriePlus,RollingTriePlus}.hpp with the hash table of util/Hash.hpp
(Model/HashMap.lean).  Model/Trie.lean represents the tables of `HashTrie` and `RollingTrie` by lists of keys; here they are
real tables, and the tries with two tables are added.

`remaining_characters` is a reference to a variable of the compressors, which decrement it before each call of
`find_or_insert` (LZ78Compressor.hpp:98, LZWCompressor.hpp:73); the models decrement it at the start of that call.  A trie
whose construction or `add_rootnode` failed is in an error state (`Except.error`), in which every later call fails.
-/

namespace Tdc.HT

open HM

/-- The growth decision for `SizeManagerDirect` (Hash.hpp:532-551; the factor 3/2 of :537). -/
def growthDirect : Grow Pol := fun p s e =>
  if s * p.lf < e * 100 then
    let x := max ((2 * e + 3 * expectedRem e p.n p.rem) * 100 / (2 * 95)) (s * 11 / 10)
    if x * 100 < s * 2 * 95 then some (x, { p with lf := 95 })
    else some ((s - 1) * 2, p)
  else none

/-- What the tries need of a table: `root` and `ins` insert a key with the number of nodes as value. -/
structure IdTab (κ : Type) where
  τ : Type
  new : τ
  /-- the insertion of `add_rootnode` -/
  root : τ → κ → Res τ
  /-- the insertion of `find_or_insert`: number of the node, and whether it is new -/
  ins : τ → κ → Res (τ × Nat × Bool)
  size : τ → Nat

/-- The template parameters of a table: hash function, prober, size manager; the growth decision depends on the latter. -/
structure Conf (κ : Type) where
  cfg : Cfg κ
  grow : Grow Pol

variable {κ : Type} [DecidableEq κ]

/-- A new table: constructor, `max_load_factor(lf / 100)` and, if it is positive, `reserve(res)` (HashTrie.hpp:28-36,
RollingTrie.hpp:37-47, HashTriePlus.hpp:26-36; Hash.hpp:415-428, 482-490). -/
def newTable (C : Cfg κ) (lf n res : Nat) : Table κ Pol :=
  { cells := freshCells κ (if res > 0 then C.minSize res else 4), entries := 0, pol := ⟨lf, n, n⟩ }

/-- `--remaining_characters` (LZ78Compressor.hpp:98, LZWCompressor.hpp:73). -/
def tick (T : Table κ Pol) : Table κ Pol := { T with pol := { T.pol with rem := T.pol.rem - 1 } }

/-- The table of `HashTrie` and `RollingTrie` (HashTrie.hpp:49-85, RollingTrie.hpp:59-87). -/
def single (A : Conf κ) (depth lf n res : Nat) : IdTab κ where
  τ := Table κ Pol
  new := newTable A.cfg lf n res
  root T k := (insert A.cfg A.grow undefId depth T k T.entries).bind fun r => .ok r.1
  ins T k := insert A.cfg A.grow undefId depth (tick T) k T.entries
  size T := T.entries

/-- The tables `m_table` and `m_table2` of `HashTriePlus` and `RollingTriePlus`. -/
structure Two (κ : Type) where
  t1 : Table κ Pol
  t2 : Table κ Pol

/-- HashTriePlus.hpp:99-101, RollingTriePlus.hpp:115-117 `size` -/
def Two.size (s : Two κ) : Nat := if s.t2.entries = 0 then s.t1.entries else s.t2.entries

/-- Hash.hpp:430-453 `incorporate`: take over the cells of another table, then `reserve`. -/
def incorporate (A : Conf κ) (depth : Nat) (t1 t2 : Table κ Pol) (newsize : Nat) : Res (Table κ Pol) :=
  reserve A.cfg (insert A.cfg A.grow undefId depth) { t2 with cells := t1.cells, entries := t1.entries } newsize

/-- The test whether to change over to the second table, with the size to reserve (HashTriePlus.hpp:86-88, RollingTriePlus.hpp:100-102). -/
def changeOver (T : Table κ Pol) : Option Nat :=
  if T.cells.length * T.pol.lf < (T.entries + 1) * 100 then
    let x := (T.entries + 1 + expectedRem T.entries T.pol.n T.pol.rem) * 100 / 95
    if x * 100 < T.cells.length * 2 * 95 then some x else none
  else none

/-- The insertion of `HashTriePlus::find_or_insert` and `RollingTriePlus::find_or_insert` (HashTriePlus.hpp:73-97,
RollingTriePlus.hpp:83-113). -/
def plusIns (A1 A2 : Conf κ) (depth : Nat) (s : Two κ) (k : κ) : Res (Two κ × Nat × Bool) :=
  let t1 := tick s.t1
  let t2 := tick s.t2
  if t2.entries ≠ 0 then
    (insert A2.cfg A2.grow undefId depth t2 k s.size).bind fun (t2, w, b) =>
      .ok (⟨t1, t2⟩, if b then s.size else w, b)
  else
    (insert A1.cfg A1.grow undefId depth t1 k s.size).bind fun (t1, w, b) =>
      if b then
        match changeOver t1 with
        | some newsize => (incorporate A2 depth t1 t2 newsize).bind fun t2 => .ok (⟨t1, t2⟩, s.size, true)
        | none => .ok (⟨t1, t2⟩, s.size, true)
      else .ok (⟨t1, t2⟩, w, false)

/-- The two tables of `HashTriePlus` and `RollingTriePlus`; the load factor of the second one is 0.95 (HashTriePlus.hpp:33).
After the change-over the first table has no cells, and an insertion of `add_rootnode` dereferences a null pointer. -/
def plus (A1 A2 : Conf κ) (depth lf n res : Nat) : IdTab κ where
  τ := Two κ
  new := ⟨newTable A1.cfg lf n res, newTable A2.cfg 95 n 0⟩
  root s k :=
    if s.t2.entries ≠ 0 then .error .ub
    else (insert A1.cfg A1.grow undefId depth s.t1 k s.size).bind fun r => .ok ⟨r.1, s.t2⟩
  ins := plusIns A1 A2 depth
  size := Two.size

/-! ## The tries -/

/-- HashTrie.hpp:49-89, HashTriePlus.hpp:56-101.  The key `create_node(id, c) = (id << 8) + c` of 40 bits (squeeze_node.hpp:28-30) is the
pair, which is faithful for `id < 2^32`. -/
def hashTrieOn (D : IdTab (Nat × UInt8)) : TrieImpl where
  σ := Res D.τ
  empty := .ok D.new
  addRoot s c := s.bind fun s => D.root s (0, c)
  getRoot s c := (s, c.toNat)
  findOrInsert s p c := s.bind fun s => (D.ins s (p, c)).bind fun (s, r) => .ok (.ok s, r)
  size s := match s with | .ok s => D.size s | .error _ => 0
  clear s := s

/-- RollingTrie.hpp:20-92, RollingTriePlus.hpp:19-117: the parent is ignored; the roller is cleared after an insertion. -/
def rollingTrieOn (H : Roller) (D : IdTab H.κ) : TrieImpl where
  σ := Res (H.S × D.τ)
  empty := .ok (H.init, D.new)
  addRoot s c := s.bind fun s => (D.root s.2 (H.out (H.step s.1 c))).bind fun t => .ok (H.init, t)
  getRoot s c := (s.bind fun s => .ok (H.step s.1 c, s.2), c.toNat)
  findOrInsert s _ c := s.bind fun s => (D.ins s.2 (H.out (H.step s.1 c))).bind fun (t, id, b) =>
    .ok (.ok (if b then H.init else H.step s.1 c, t), id, b)
  size s := match s with | .ok s => D.size s.2 | .error _ => 0
  clear s := s

/-! ## Configurations -/

/-- Linear probing with `SizeManagerPow2`. -/
def confPow2 (hash : κ → Nat) : Conf κ := ⟨{ hash := hash, modT := pow2Mod, get := linGet, minSize := pow2Min }, growth⟩
/-- Linear probing with `SizeManagerPrime`. -/
def confPrime (hash : κ → Nat) : Conf κ := ⟨{ hash := hash, modT := noobMod, get := linGet, minSize := primeMin }, growth⟩
/-- Linear probing with `SizeManagerNoob`. -/
def confNoob (hash : κ → Nat) : Conf κ := ⟨{ hash := hash, modT := noobMod, get := linGet, minSize := noobMin }, growth⟩
/-- Linear probing with `SizeManagerDirect`. -/
def confDirect (hash : κ → Nat) : Conf κ := ⟨{ hash := hash, modT := directMod, get := linGet, minSize := noobMin }, growthDirect⟩

/-- `MixHasher` (Hash.hpp:54-63) of the key of a node. -/
def mix (e : Nat × UInt8) : Nat :=
  let key := CSH.createNode e.1 e.2
  let key := ((2 ^ 64 - 1 - key) + key <<< 21) % 2 ^ 64
  let key := key ^^^ (key >>> 24)
  let key := (key + key <<< 3 + key <<< 8) % 2 ^ 64
  let key := key ^^^ (key >>> 14)
  let key := (key + key <<< 2 + key <<< 4) % 2 ^ 64
  let key := key ^^^ (key >>> 28)
  (key + key <<< 31) % 2 ^ 64

/-- The number of nodes the compressors reserve: LZ78Compressor.hpp:66, LZWCompressor.hpp:41, 52. -/
def resLz78 (n : Nat) : Nat := CSH.isqrt n * 2
def resLzw (n : Nat) : Nat := CSH.isqrt n * 2 + 256

end Tdc.HT
