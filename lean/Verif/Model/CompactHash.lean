import Verif.Model.BitIO
import Verif.Model.TextDS
import Verif.Model.Trie

/-!
# The compact sparse hash table and the LZ78 trie built on it

util/compact_sparse_hash.hpp (`compact_hash<val_t>`) and compressors/lz78/CompactSparseHashTrie.hpp.

A hash table with linear probing that stores only quotients: the key of an entry is recovered from its quotient and
from two bit vectors, `v` (a group of entries with this home address exists) and `c` (a group starts here).  Below that
lies a sparse layer: 64 positions at a time are stored in a bucket that only has room for the positions in use.

Simplifications:
* The bits of a bucket's quotient array (`IntPtr<dynamic_t>`) and its value array are one list of pairs; allocation and
  the order of destruction are not modelled.  In particular `grow_if_needed` frees the buckets of the old table while
  it walks over them (:809-817); as it never looks at a freed bucket again this is not visible.
* `val_t` is an unsigned integer type (`factorid_t` for the trie), so moving from a value leaves it unchanged.
* Counters and addresses are `Nat`; the only place where 64-bit wrap around matters (`to - 1` with `to = 0` in
  `sparse_shift`) is written out.
-/

namespace Tdc.CSH

/-- util/compact_sparse_hash.hpp:29-40 `compact_hashfn` (and :42-44 `compact_reverse_hashfn`, the same function);
`w ≤ 64`. -/
def hashfn (x w : Nat) : Nat := (x ^^^ ((x <<< (w / 2 + 1)) % 2 ^ w)) % 2 ^ w

/-- `__builtin_popcountll(bv & ((1ull << i) - 1))` (:1188): number of set bits below bit `i`. -/
def rank (bv i : Nat) : Nat := ((List.range i).filter fun j => bv.testBit j).length

/-- util/compact_sparse_hash.hpp:108-253 `Bucket`: the bit vector and the (quotient, value) pairs of the positions in
use, in order. -/
structure Bucket where
  bv : Nat
  elems : List (Nat × Nat)
deriving DecidableEq, Repr

/-- util/compact_sparse_hash.hpp:313-327 the members of `compact_hash`: `log` = `m_sizing.m_capacity_log2`,
`size` = `m_sizing.m_size`, `width` = `m_width`, `v`/`c` = the low/high bits of `m_cv`. -/
structure Tab where
  log : Nat
  size : Nat
  width : Nat
  v : List Bool
  c : List Bool
  buckets : List Bucket
deriving DecidableEq, Repr

/-- util/compact_sparse_hash.hpp:388-390 `table_size()` -/
def Tab.cap (t : Tab) : Nat := 2 ^ t.log

/-- util/compact_sparse_hash.hpp:57-59 `is_pot` -/
def isPot (n : Nat) : Bool := decide (0 < n) && decide (n &&& (n - 1) = 0)

/-- util/compact_sparse_hash.hpp:340-343 the number of buckets: `(m_sizing.size() + 63) << 6`.  The entry count is 0
at this point (the capacity was meant), and the shift goes the wrong way, so this is always 4032. -/
def nBuckets : Nat := (0 + 63) <<< 6

/-- util/compact_sparse_hash.hpp:335-344 the constructor; :68-72 `CHECK(is_pot(capacity))` terminates the program,
:46-55 `log2_upper`. -/
def newTab (capacity width : Nat) : Res Tab :=
  let cap := if capacity < 2 then 2 else capacity
  if isPot cap then
    let log := cap.log2
    .ok ⟨log, 0, width, List.replicate (2 ^ log) false, List.replicate (2 ^ log) false,
      List.replicate nBuckets ⟨0, []⟩⟩
  else .error .throw

/-- util/compact_sparse_hash.hpp:439-441 `real_width` -/
def Tab.realWidth (t : Tab) : Nat := max (t.log + 1) t.width

/-- util/compact_sparse_hash.hpp:448-468 `decompose_key`: initial address and stored quotient. -/
def Tab.decompose (t : Tab) (key : Nat) : Nat × Nat :=
  let hres := hashfn key t.realWidth
  (hres % 2 ^ t.log, hres / 2 ^ t.log)

/-- util/compact_sparse_hash.hpp:470-485 `compose_key` -/
def Tab.compose (t : Tab) (ia quot : Nat) : Nat := hashfn ((quot <<< t.log) ||| ia) t.realWidth

/-- util/compact_sparse_hash.hpp:715-718 `mod_add` by 1 -/
def Tab.next (t : Tab) (i : Nat) : Nat := (i + 1) % t.cap

/-- util/compact_sparse_hash.hpp:719-723 `mod_sub` by 1 -/
def Tab.prev (t : Tab) (i : Nat) : Nat := (i + t.cap - 1) % t.cap

/-! ## The sparse layer -/

/-- util/compact_sparse_hash.hpp:1154-1190 `SparsePos`: bucket, bit in the bucket, whether the position is in use, and
the offset among the elements of the bucket -/
structure SPos where
  bkt : Nat
  bit : Nat
  used : Bool
  off : Nat
deriving DecidableEq, Repr

/-- util/compact_sparse_hash.hpp:1192-1194 `sparse_pos`: `m_buckets[pos >> 6]` is not bounds checked. -/
def spos (t : Tab) (pos : Nat) : Res SPos :=
  (vget t.buckets (pos / 64)).bind fun b =>
  .ok ⟨pos / 64, pos % 64, b.bv.testBit (pos % 64), rank b.bv (pos % 64)⟩

/-- util/compact_sparse_hash.hpp:986-988 `sparse_exists` -/
def sexists (t : Tab) (pos : Nat) : Res Bool := (spos t pos).bind fun p => .ok p.used

/-- A reference to an element: bucket index and offset.  (It stays meaningful as long as the bucket is not replaced.) -/
abbrev Handle := Nat × Nat

/-- util/compact_sparse_hash.hpp:1196-1201 `sparse_get_at(SparsePos)`, reading quotient and value -/
def hget (t : Tab) (h : Handle) : Res (Nat × Nat) :=
  (vget t.buckets h.1).bind fun b => vget b.elems h.2

/-- Writing quotient and value through `sparse_get_at` -/
def hset (t : Tab) (h : Handle) (e : Nat × Nat) : Res Tab :=
  (vget t.buckets h.1).bind fun b =>
  (vset b.elems h.2 e).bind fun es =>
  .ok { t with buckets := t.buckets.set h.1 { b with elems := es } }

/-- Writing a value through the reference returned by `index` -/
def hsetVal (t : Tab) (h : Handle) (x : Nat) : Res Tab := (hget t h).bind fun e => hset t h (e.1, x)

/-- util/compact_sparse_hash.hpp:90-101 `rotate_end_to`, the loop from `b` (= `a + k`) down to `a`, with `tmp`. -/
def rotLoop (a : Nat) (tmp : Nat × Nat) : Nat → List (Nat × Nat) → Res (List (Nat × Nat))
  | 0, l => vset l a tmp
  | k + 1, l => (vget l (a + k)).bind fun x => (vset l (a + (k + 1)) x).bind fun l => rotLoop a tmp k l

/-- util/compact_sparse_hash.hpp:237-244 `Bucket::rotate_end_to` -/
def rotateEndTo (l : List (Nat × Nat)) (pos : Nat) : Res (List (Nat × Nat)) :=
  (vget l (l.length - 1)).bind fun tmp =>
  if pos ≤ l.length - 1 then rotLoop pos tmp (l.length - 1 - pos) l else .error .ub

/-- util/compact_sparse_hash.hpp:937-980 `sparse_set_at_empty_handler`: a new bucket with one more element, appended and
rotated into place.  (If the position were in use, the new bucket would be too small: :939 asserts that it is not.)
Result: table and location of the new element. -/
def setAtEmpty (t : Tab) (pos quot val : Nat) : Res (Tab × Handle) :=
  (spos t pos).bind fun p =>
  if p.used then .error .ub else
  (vget t.buckets p.bkt).bind fun b =>
  (rotateEndTo (b.elems ++ [(quot, val)]) p.off).bind fun es =>
  .ok ({ t with buckets := t.buckets.set p.bkt ⟨b.bv ||| 2 ^ p.bit, es⟩ }, (p.bkt, p.off))

/-- util/compact_sparse_hash.hpp:1034-1038: go back to the last non-empty bucket before bucket `b`. -/
def prevBucket (t : Tab) : Nat → Res Handle
  | 0 => .error .ub
  | b + 1 => (vget t.buckets b).bind fun x => if x.bv = 0 then prevBucket t b else .ok (b, rank x.bv 64 - 1)

/-- util/compact_sparse_hash.hpp:1030-1039 `iter::decrement` -/
def iterDec (t : Tab) (i : Handle) : Res Handle := if i.2 ≠ 0 then .ok (i.1, i.2 - 1) else prevBucket t i.1

/-- util/compact_sparse_hash.hpp:1067-1078: the loop moving all elements one to the right. -/
def shiftLoop (fromIt : Handle) : Nat → Tab → Handle → Handle → Res Tab
  | 0, _, _, _ => .error .loop
  | fuel + 1, t, src, dst =>
    if src = fromIt then .ok t
    else
      (iterDec t src).bind fun src =>
      (iterDec t dst).bind fun dst =>
      (hget t src).bind fun e =>
      (hset t dst e).bind fun t =>
      shiftLoop fromIt fuel t src dst

/-- util/compact_sparse_hash.hpp:994-1090 `sparse_shift(from, to, val, quot)`: table, location of `from`, and the new
contents of the reference parameters.  `to - 1` is computed with 64 bits. -/
def sshift (t : Tab) (frm to quot val : Nat) : Res (Tab × SPos × Nat × Nat) :=
  (spos t frm).bind fun fromLoc =>
  (spos t ((to + 2 ^ 64 - 1) % 2 ^ 64)).bind fun last =>
  (spos t to).bind fun dst =>
  (hget t (last.bkt, last.off)).bind fun tmp =>
  (shiftLoop (fromLoc.bkt, fromLoc.off) (t.cap + 1) t (last.bkt, last.off) (dst.bkt, dst.off)).bind fun t =>
  (hset t (fromLoc.bkt, fromLoc.off) (quot, val)).bind fun t =>
  .ok (t, fromLoc, tmp.1, tmp.2)

/-- util/compact_sparse_hash.hpp:1092-1142 `shift_insert_sparse_handler`.  The location handed to the caller is the one
computed *before* the element at `to` was inserted. -/
def shiftInsertSparse (t : Tab) (frm to quot val : Nat) : Res (Tab × Handle) :=
  (if to < frm then
    (sshift t frm t.cap quot val).bind fun (t, loc, quot, val) =>
    (sshift t 0 to quot val).bind fun (t, _, quot, val) => .ok (t, loc, quot, val)
   else sshift t frm to quot val).bind fun (t, loc, quot, val) =>
  (setAtEmpty t to quot val).bind fun (t, _) =>
  .ok (t, (loc.bkt, loc.off))

/-! ## Groups -/

/-- util/compact_sparse_hash.hpp:402-405 `set_v` -/
def setV (t : Tab) (pos : Nat) (b : Bool) : Res Tab := (vset t.v pos b).bind fun v => .ok { t with v := v }

/-- util/compact_sparse_hash.hpp:407-410 `set_c` -/
def setC (t : Tab) (pos : Nat) (b : Bool) : Res Tab := (vset t.c pos b).bind fun c => .ok { t with c := c }

/-- util/compact_sparse_hash.hpp:494-500: shift the `c` bits of `[from, to)` by one. -/
def shiftC (frm : Nat) : Nat → Tab → Nat → Res Tab
  | 0, _, _ => .error .loop
  | fuel + 1, t, i =>
    if i = frm then .ok t
    else
      (vget t.c (t.prev i)).bind fun b => (setC t i b).bind fun t => shiftC frm fuel t (t.prev i)

/-- util/compact_sparse_hash.hpp:487-504 `shift_insert_handler` -/
def shiftInsert (t : Tab) (frm to quot val : Nat) : Res (Tab × Handle) :=
  (shiftC frm (t.cap + 1) t to).bind fun t =>
  (shiftInsertSparse t frm to quot val).bind fun (t, h) =>
  (setC t frm false).bind fun t => .ok (t, h)

/-- util/compact_sparse_hash.hpp:526-529: walk forward to the first empty position, counting `v` bits. -/
def walkFwd (t : Tab) : Nat → Nat → Nat → Res (Nat × Nat)
  | 0, _, _ => .error .loop
  | fuel + 1, cur, n =>
    (sexists t cur).bind fun e =>
    if e then (vget t.v cur).bind fun b => walkFwd t fuel (t.next cur) (n + b.toNat)
    else .ok (cur, n)

/-- util/compact_sparse_hash.hpp:535-537, 541-543: walk back until the counter has the value `stop`. -/
def walkBack (t : Tab) (stop : Nat) : Nat → Nat → Nat → Res Nat
  | 0, _, _ => .error .loop
  | fuel + 1, cur, n =>
    if n = stop then .ok cur
    else (vget t.c (t.prev cur)).bind fun b => walkBack t stop fuel (t.prev cur) (n - b.toNat)

/-- util/compact_sparse_hash.hpp:515-548 `search_existing_group`: `group_start`, `group_end`, `groups_terminator` -/
def searchGroup (t : Tab) (ia : Nat) : Res (Nat × Nat × Nat) :=
  (walkFwd t (t.cap + 1) ia 0).bind fun (term, n) =>
  (walkBack t 1 (t.cap + 1) term n).bind fun ge =>
  (walkBack t 0 (t.cap + 1) ge 1).bind fun gs => .ok (gs, ge, term)

/-- util/compact_sparse_hash.hpp:550-559 `search(SearchedGroup, quotient)` -/
def searchIn (t : Tab) (ge quot : Nat) : Nat → Nat → Res (Option Handle)
  | 0, _ => .error .loop
  | fuel + 1, i =>
    if i = ge then .ok none
    else
      (spos t i).bind fun p =>
      (hget t (p.bkt, p.off)).bind fun e =>
      if e.1 = quot then .ok (some (p.bkt, p.off)) else searchIn t ge quot fuel (t.next i)

/-- util/compact_sparse_hash.hpp:642-663 `insert_after` -/
def insertAfter (t : Tab) (ge term quot val : Nat) : Res (Tab × Handle) :=
  (sexists t ge).bind fun e =>
  if e then shiftInsert t ge term quot val else setAtEmpty t ge quot val

/-- util/compact_sparse_hash.hpp:665-713 `insert_handler` after the call of `grow_if_needed`.  Result: table, location
handed to the handler, and whether the key was there already (`on_existing` was called).  `val` is what `on_new`
provides. -/
def insertCore (t : Tab) (key val : Nat) : Res (Tab × Handle × Bool) :=
  let ia := (t.decompose key).1
  let quot := (t.decompose key).2
  (sexists t ia).bind fun e =>
  if !e then
    (setAtEmpty t ia quot val).bind fun (t, h) =>
    (setV t ia true).bind fun t =>
    (setC t ia true).bind fun t =>
    .ok ({ t with size := t.size + 1 }, h, false)
  else
    (vget t.v ia).bind fun g =>
    if g then
      (searchGroup t ia).bind fun (gs, ge, term) =>
      (searchIn t ge quot (t.cap + 1) gs).bind fun p =>
      match p with
      | some h => .ok (t, h, true)
      | none =>
        (insertAfter t ge term quot val).bind fun (t, h) =>
        .ok ({ t with size := t.size + 1 }, h, false)
    else
      (setV t ia true).bind fun t =>
      (searchGroup t ia).bind fun (_, ge, term) =>
      (insertAfter t ge term quot val).bind fun (t, h) =>
      (setC t ge true).bind fun t =>
      .ok ({ t with size := t.size + 1 }, h, false)

/-! ## Growing -/

/-- util/compact_sparse_hash.hpp:739-743: the first empty position. -/
def firstEmpty (t : Tab) : Nat → Nat → Res Nat
  | 0, _ => .error .loop
  | fuel + 1, i => (sexists t i).bind fun e => if e then firstEmpty t fuel (i + 1) else .ok i

/-- util/compact_sparse_hash.hpp:786-790: go on to the next `v` bit. -/
def nextV (t : Tab) : Nat → Nat → Res Nat
  | 0, _ => .error .loop
  | fuel + 1, i => (vget t.v i).bind fun b => if b then .ok i else nextV t fuel (t.next i)

/-- util/compact_sparse_hash.hpp:754-800 `iter_all_t::next`, all calls together: the pairs (initial address, position).
`full` is the state, `ia` the member `initial_address`. -/
def iterAll (t : Tab) (start : Nat) : Nat → Bool → Nat → Nat → Res (List (Nat × Nat))
  | 0, _, _, _ => .error .loop
  | fuel + 1, false, i, ia =>
    (sexists t i).bind fun e =>
    if e then iterAll t start fuel true i (t.prev i)
    else if i = start then .ok []
    else iterAll t start fuel false (t.next i) ia
  | fuel + 1, true, i, ia =>
    (sexists t i).bind fun e =>
    if !e then iterAll t start fuel false i ia
    else
      (vget t.c i).bind fun c =>
      (if c then nextV t (t.cap + 1) (t.next ia) else .ok ia).bind fun ia =>
      (iterAll t start fuel true (t.next i) ia).bind fun r => .ok ((ia, i) :: r)

/-- util/compact_sparse_hash.hpp:774-777 `needs_capacity_change` -/
def needsCap (t : Tab) : Bool := decide (t.cap / 2 ≤ t.size + 1)

/-- util/compact_sparse_hash.hpp:779-781 `needs_realloc` -/
def needsRealloc (t : Tab) (w : Nat) : Bool := needsCap t || decide (w ≠ t.width)

/-- util/compact_sparse_hash.hpp:804-825: insert all entries into the new table.  The nested call of `grow_if_needed`
(`insert` with the width of the new table) must not start another growth, which the model reports as a fault; `insert`
of a key that exists already keeps the old value (:604-606 `on_existing` assigns the wrong way round). -/
def growLoop (old : Tab) : List (Nat × Nat) → Tab → Res Tab
  | [], new => .ok new
  | (ia, i) :: r, new =>
    (spos old i).bind fun p =>
    (hget old (p.bkt, p.off)).bind fun e =>
    if needsRealloc new new.width then .error .loop
    else
      (insertCore new (old.compose ia e.1) e.2).bind fun (new, _, _) => growLoop old r new

/-- util/compact_sparse_hash.hpp:806-836 `grow_if_needed` -/
def grow (t : Tab) (w : Nat) : Res Tab :=
  if needsRealloc t w then
    (newTab (if needsCap t then t.cap * 2 else t.cap) w).bind fun new =>
    (firstEmpty t (t.cap + 1) 0).bind fun s =>
    (iterAll t s (2 * t.cap + 2) false (t.next s) 0).bind fun l =>
    growLoop t l new
  else .ok t

/-! ## The interface -/

/-- util/compact_sparse_hash.hpp:570-574 `insert(key, value, key_width)`: inserts the value if the key is new.  If it is
not, `InsertHandler::on_existing` (:604-606) assigns the stored value to the argument. -/
def insert (t : Tab) (key val w : Nat) : Res Tab :=
  (grow t w).bind fun t => (insertCore t key val).bind fun (t, _, _) => .ok t

/-- util/compact_sparse_hash.hpp:580-588 `index(key, key_width)`: the reference to the value for a key, inserted with a
default constructed value (0) if it is missing. -/
def index (t : Tab) (key w : Nat) : Res (Tab × Handle) :=
  (grow t w).bind fun t => (insertCore t key 0).bind fun (t, h, _) => .ok (t, h)

/-- util/compact_sparse_hash.hpp:561-567 `search(key)`: the value stored for the key -/
def search (t : Tab) (key : Nat) : Res (Option Nat) :=
  let ia := (t.decompose key).1
  (vget t.v ia).bind fun g =>
  if g then
    (searchGroup t ia).bind fun (gs, ge, _) =>
    (searchIn t ge (t.decompose key).2 (t.cap + 1) gs).bind fun p =>
    match p with
    | some h => (hget t h).bind fun e => .ok (some e.2)
    | none => .ok none
  else .ok none

/-! ## The trie -/

/-- util.hpp:589-599 `zero_or_next_power_of_two` (64 bit) -/
def zeroOrPow2 (x : Nat) : Nat :=
  let x := (x + 2 ^ 64 - 1) % 2 ^ 64
  let x := x ||| x >>> 1
  let x := x ||| x >>> 2
  let x := x ||| x >>> 4
  let x := x ||| x >>> 8
  let x := x ||| x >>> 16
  let x := x ||| x >>> 32
  (x + 1) % 2 ^ 64

/-- util.hpp:502-515: the main loop of `isqrt` (`k` = number of iterations left, `bit = 4 ^ (k-1)`) -/
def isqrtLoop : Nat → Nat → Nat → Nat
  | 0, _, res => res
  | k + 1, num, res =>
    let bit := 4 ^ k
    if num ≥ res + bit then isqrtLoop k (num - (res + bit)) (res / 2 + bit) else isqrtLoop k num (res / 2)

/-- util.hpp:495-515 `isqrt<size_t>`.  `bit` starts at `1 << (sizeof(size_t) - 2) = 64 = 4^3` (the number of bits was
meant) and is divided by 4 while it exceeds the argument. -/
def isqrt (num : Nat) : Nat :=
  isqrtLoop (if 64 ≤ num then 4 else if 16 ≤ num then 3 else if 4 ≤ num then 2 else if 1 ≤ num then 1 else 0) num 0

/-- compressors/lz78/CompactSparseHashTrie.hpp:16-23: the table and `m_key_width` -/
structure CTrie where
  tab : Tab
  kw : Nat
deriving DecidableEq, Repr

/-- compressors/lz78/squeeze_node.hpp:28-30 `create_node(id, c)` -/
def createNode (id : Nat) (c : UInt8) : Nat := (id <<< 8) + c.toNat

/-- compressors/lz78/CompactSparseHashTrie.hpp:20-23 `key_width` followed by `m_table.index(key, key_width(key))`
(:54, :85).  `strict` is `false` for the code as it is; with `strict = true` the run is given up when the returned
reference does not belong to the key, or when the table is about to outgrow its buckets (more than 2^17 positions). -/
def trieIndex (strict : Bool) (s : CTrie) (key : Nat) : Res (CTrie × Handle) :=
  let kw := max s.kw (bitsFor key)
  if strict && (needsCap s.tab && decide (17 ≤ s.tab.log)) then .error .ub else
  (index s.tab key kw).bind fun (t, h) =>
  if strict then
    (insertCore t key 0).bind fun (_, h', _) => if h = h' then .ok (⟨t, kw⟩, h) else .error .ub
  else .ok (⟨t, kw⟩, h)

/-- compressors/lz78/CompactSparseHashTrie.hpp:50-60 `add_rootnode` -/
def trieAddRoot (strict : Bool) (s : CTrie) (c : UInt8) : Res CTrie :=
  let value := s.tab.size
  (trieIndex strict s (createNode 0 c)).bind fun (s, h) =>
  (hsetVal s.tab h (value % 2 ^ 32)).bind fun t => .ok { s with tab := t }

/-- compressors/lz78/CompactSparseHashTrie.hpp:70-96 `find_or_insert` -/
def trieFind (strict : Bool) (s : CTrie) (p : Nat) (c : UInt8) : Res (CTrie × Nat × Bool) :=
  let newleaf := s.tab.size % 2 ^ 32
  (trieIndex strict s (createNode p c)).bind fun (s, h) =>
  (hget s.tab h).bind fun e =>
  if e.2 = 0 then
    (hsetVal s.tab h newleaf).bind fun t => .ok ({ s with tab := t }, newleaf, true)
  else .ok (s, e.2, false)

/-- compressors/lz78/CompactSparseHashTrie.hpp.  `reserve` is the constructor argument.  As `addRoot` has no error result
in `TrieImpl`, the state records whether the program has failed already. -/
def cshTrie (strict : Bool) (reserve : Nat) : TrieImpl where
  σ := Res CTrie
  empty := (newTab (zeroOrPow2 reserve) 0).bind fun t => .ok ⟨t, 0⟩            -- :33-39
  addRoot s c := s.bind fun s => trieAddRoot strict s c
  getRoot s c := (s, c.toNat)                                                  -- :62-64
  findOrInsert s p c := s.bind fun s => (trieFind strict s p c).bind fun (s, r) => .ok (.ok s, r)
  size s := match s with | .ok s => s.tab.size | .error _ => 0                 -- :98-100
  clear s := s                                                                 -- :66-68

end Tdc.CSH
