import Verif.Model.Trie

/-!
# The double-array trie `cedar` and the trie of LZ78 and LZW built on it

compressors/lz78/cedar.hpp with the template parameters used by CedarTrie.hpp:29 (`ORDERED`, `MAX_TRIAL = 1`, no tracking nodes, not
`USE_REDUCED_TRIE`), the part of it which CedarTrie.hpp calls (`traverse` and `update`), and CedarTrie.hpp.

Simplifications: `int` and the 32-bit values are integers; the memory between `_size` and `_capacity` does not exist (no access to it is
correct, it is not initialised); the arrays are functions together with the number of cells, every access outside is an error.  Loops over
linked lists have a bound on the number of steps, and running out of it is an error.
-/

namespace Tdc.Cedar

/-- cedar.hpp:44-54 `node` -/
structure Cell where
  base : Int
  check : Int
deriving DecidableEq, Repr, Inhabited

/-- cedar.hpp:60-68 `block` -/
structure Blk where
  prev : Nat := 0
  next : Nat := 0
  num : Nat := 256
  reject : Nat := 257
  trial : Nat := 0
  ehead : Nat := 0
deriving DecidableEq, Repr, Inhabited

/-- A binary tree of the values stored in an array: the value at 0, those at odd and those at even positive indices. -/
inductive Tree (α : Type) where
  | nil
  | node (v : Option α) (l r : Tree α)

def Tree.get {α : Type} : Tree α → Nat → Option α
  | .nil, _ => none
  | .node v l r, n => if n = 0 then v else if n % 2 = 1 then l.get (n / 2) else r.get (n / 2 - 1)

def Tree.single {α : Type} (v : α) : Nat → Nat → Tree α
  | 0, _ => .nil
  | fuel + 1, n => if n = 0 then .node (some v) .nil .nil else if n % 2 = 1 then .node none (single v fuel (n / 2)) .nil
    else .node none .nil (single v fuel (n / 2 - 1))

def Tree.set {α : Type} (v : α) : Tree α → Nat → Tree α
  | .nil, n => single v (n + 1) n
  | .node w l r, n => if n = 0 then .node (some v) l r else if n % 2 = 1 then .node w (l.set v (n / 2)) r
    else .node w l (r.set v (n / 2 - 1))

/-- An array: its initial contents, and what was written to it.  (The tree makes evaluation in the kernel possible.) -/
structure Arr (α : Type) where
  dflt : Nat → α
  written : Tree α

def Arr.get {α : Type} (a : Arr α) (i : Nat) : α :=
  match a.written.get i with
  | some v => v
  | none => a.dflt i

instance {α : Type} : CoeFun (Arr α) (fun _ => Nat → α) := ⟨Arr.get⟩

/-- an array with the given contents -/
def Arr.of {α : Type} (f : Nat → α) : Arr α := ⟨f, .nil⟩

/-- cedar.hpp:345-356: `_array`, `_ninfo` (two arrays), `_block`, the heads of the three lists of blocks, `_reject`, `_size` -/
structure Da where
  cell : Arr Cell
  sib : Arr Nat
  child : Arr Nat
  blk : Arr Blk
  hF : Nat
  hC : Nat
  hO : Nat
  rej : Arr Nat
  size : Nat

/-- assignment to an array -/
def upd {α : Type} (a : Arr α) (i : Nat) (v : α) : Arr α := { a with written := a.written.set v i }

/-- an access to `_array[i]` or `_ninfo[i]`; the result is the index -/
def Da.idx (s : Da) (i : Int) : Res Nat := if 0 ≤ i ∧ i < s.size then .ok i.toNat else .error .ub

def Da.nidx (s : Da) (i : Nat) : Res Nat := if i < s.size then .ok i else .error .ub

/-- an access to `_block[i]` -/
def Da.bidx (s : Da) (i : Nat) : Res Nat := if i < s.size / 256 then .ok i else .error .ub

def Da.setBase (s : Da) (i : Nat) (v : Int) : Da := { s with cell := upd s.cell i ⟨v, (s.cell i).check⟩ }
def Da.setCheck (s : Da) (i : Nat) (v : Int) : Da := { s with cell := upd s.cell i ⟨(s.cell i).base, v⟩ }
def Da.setBlk (s : Da) (i : Nat) (f : Blk → Blk) : Da := { s with blk := upd s.blk i (f (s.blk i)) }

/-- cedar.hpp:385-402 `_initialize` -/
def init : Da where
  cell := .of fun i => if i = 0 then ⟨0, -1⟩ else ⟨if i = 1 then -255 else -((i : Int) - 1), if i = 255 then -1 else -((i : Int) + 1)⟩
  sib := .of fun _ => 0
  child := .of fun _ => 0
  blk := .of fun _ => { ehead := 1 }
  hF := 0
  hC := 0
  hO := 0
  rej := .of fun i => i + 1
  size := 256

/-- the lists of blocks: Full, Closed and Open -/
inductive Lst where | F | C | O
deriving DecidableEq

def Da.head (s : Da) : Lst → Nat
  | .F => s.hF
  | .C => s.hC
  | .O => s.hO

def Da.setHead (s : Da) (l : Lst) (v : Nat) : Da :=
  match l with
  | .F => { s with hF := v }
  | .C => { s with hC := v }
  | .O => { s with hO := v }

/-- cedar.hpp:466-475 `_pop_block` -/
def popBlock (s : Da) (bi : Nat) (l : Lst) (last : Bool) : Res Da :=
  if last then .ok (s.setHead l 0) else
    (s.bidx (s.blk bi).prev).bind fun p =>
    (s.bidx (s.blk bi).next).bind fun n =>
    let s := s.setBlk p fun b => { b with next := n }
    let s := s.setBlk n fun b => { b with prev := p }
    .ok (if bi = s.head l then s.setHead l n else s)

/-- cedar.hpp:476-486 `_push_block` -/
def pushBlock (s : Da) (bi : Nat) (l : Lst) (empty : Bool) : Res Da :=
  if empty then
    .ok ((s.setBlk bi fun b => { b with prev := bi, next := bi }).setHead l bi)
  else
    (s.bidx (s.head l)).bind fun h =>
    (s.bidx (s.blk h).prev).bind fun t =>
    let s := s.setBlk bi fun b => { b with prev := t, next := h }
    let s := s.setBlk t fun b => { b with next := bi }
    let s := s.setBlk h fun b => { b with prev := bi }
    .ok (s.setHead l bi)

/-- cedar.hpp:487-506 `_add_block`; the result is the number of the block.  The new cells are added to the initial contents of the arrays (they
were never written before, as they were out of bounds). -/
def addBlock (s : Da) : Res (Da × Nat) :=
  let n := s.size
  let s := { s with
    size := n + 256
    blk := upd s.blk (n / 256) { ehead := n }
    cell := { s.cell with dflt := fun i => if i < n then s.cell.dflt i else
      ⟨if i = n then -((n : Int) + 255) else -((i : Int) - 1), if i = n + 255 then -(n : Int) else -((i : Int) + 1)⟩ } }
  (pushBlock s (n / 256) .O (s.hO = 0)).bind fun s => .ok (s, n / 256)

/-- cedar.hpp:508-511 `_transfer_block` -/
def transfer (s : Da) (bi : Nat) (src dst : Lst) : Res Da :=
  (popBlock s bi src (bi = (s.blk bi).next)).bind fun s => pushBlock s bi dst (s.head dst = 0 ∧ (s.blk bi).num ≠ 0)

/-- cedar.hpp:588-592 `_find_place ()` -/
def findPlace (s : Da) : Res (Da × Nat) :=
  if s.hC ≠ 0 then (s.bidx s.hC).bind fun b => .ok (s, (s.blk b).ehead)
  else if s.hO ≠ 0 then (s.bidx s.hO).bind fun b => .ok (s, (s.blk b).ehead)
  else (addBlock s).bind fun (s, b) => .ok (s, b * 256)

/-- cedar.hpp:513-537 `_pop_enode` -/
def popEnode (s : Da) (base : Int) (label : Nat) (frm : Nat) : Res (Da × Nat) :=
  (if base < 0 then findPlace s else .ok (s, base.toNat ^^^ label)).bind fun (s, e) =>
  (s.nidx e).bind fun e =>
  let bi := e / 256
  let n := s.cell e
  let s := s.setBlk bi fun b => { b with num := b.num - 1 }
  (if (s.blk bi).num = 0 then
    if bi ≠ 0 then transfer s bi .C .F else .ok s
  else
    (s.idx (-n.base)).bind fun p =>
    (s.idx (-n.check)).bind fun q =>
    let s := s.setCheck p n.check
    let s := s.setBase q n.base
    let s := if e = (s.blk bi).ehead then s.setBlk bi fun b => { b with ehead := q } else s
    if bi ≠ 0 ∧ (s.blk bi).num = 1 ∧ (s.blk bi).trial ≠ 1 then transfer s bi .O .C else .ok s).bind fun s =>
  let s := { s with cell := upd s.cell e ⟨if label ≠ 0 then -1 else 0, frm⟩ }
  .ok (if base < 0 then s.setBase frm ((e ^^^ label : Nat) : Int) else s, e)

/-- cedar.hpp:539-557 `_push_enode` -/
def pushEnode (s : Da) (e : Nat) : Res Da :=
  (s.nidx e).bind fun e =>
  let bi := e / 256
  let s := s.setBlk bi fun b => { b with num := b.num + 1 }
  (if (s.blk bi).num = 1 then
    let s := s.setBlk bi fun b => { b with ehead := e }
    let s := { s with cell := upd s.cell e ⟨-(e : Int), -(e : Int)⟩ }
    if bi ≠ 0 then transfer s bi .F .C else .ok s
  else
    (s.nidx (s.blk bi).ehead).bind fun prev =>
    (s.idx (-(s.cell prev).check)).bind fun next =>
    let s := { s with cell := upd s.cell e ⟨-(prev : Int), -(next : Int)⟩ }
    let s := s.setBase next (-(e : Int))
    let s := s.setCheck prev (-(e : Int))
    (if (s.blk bi).num = 2 ∨ (s.blk bi).trial = 1 then
      if bi ≠ 0 then transfer s bi .C .O else .ok s
    else .ok s).bind fun s => .ok (s.setBlk bi fun b => { b with trial := 0 })).bind fun s =>
  let s := if (s.blk bi).reject < s.rej (s.blk bi).num then s.setBlk bi fun b => { b with reject := s.rej b.num } else s
  .ok { s with sib := upd s.sib e 0, child := upd s.child e 0 }

/-- cedar.hpp:561-562: the loop of `_push_sibling`; the result is the index of the `sibling` which `c` points to. -/
def slot (s : Da) (base label : Nat) : Nat → Nat → Res Nat
  | 0, _ => .error .loop
  | fuel + 1, x =>
    (s.nidx (base ^^^ x)).bind fun i =>
    match s.sib i with
    | 0 => .ok i
    | x + 1 => if x + 1 < label then slot s base label fuel (x + 1) else .ok i

/-- cedar.hpp:559-564 `_push_sibling` -/
def pushSibling (s : Da) (frm base label : Nat) (flag : Bool) : Res Da :=
  (s.nidx frm).bind fun frm =>
  (s.nidx (base ^^^ label)).bind fun j =>
  if flag ∧ label > s.child frm then
    (slot s base label 256 (s.child frm)).bind fun i =>
    .ok { s with sib := upd (upd s.sib j (s.sib i)) i label }
  else .ok { s with sib := upd s.sib j (s.child frm), child := upd s.child frm label }

/-- cedar.hpp:572-576 `_consult` -/
def consult (s : Da) (bn bp : Nat) : Nat → Nat → Nat → Res Bool
  | 0, _, _ => .error .loop
  | fuel + 1, cn, cp =>
    (s.nidx (bn ^^^ cn)).bind fun i =>
    (s.nidx (bp ^^^ cp)).bind fun j =>
    if s.sib i ≠ 0 ∧ s.sib j ≠ 0 then consult s bn bp fuel (s.sib i) (s.sib j) else .ok (s.sib j ≠ 0)

/-- cedar.hpp:582, 584: the labels from `c` on -/
def labels (s : Da) (base : Nat) : Nat → Nat → Res (List Nat)
  | 0, _ => .error .loop
  | fuel + 1, c =>
    if c = 0 then .ok [] else
      (s.nidx (base ^^^ c)).bind fun i => (labels s base fuel (s.sib i)).bind fun l => .ok (c :: l)

/-- cedar.hpp:578-586 `_set_child` -/
def setChild (s : Da) (base c : Nat) (label : Option Nat) : Res (List Nat) :=
  (if c = 0 then (s.nidx (base ^^^ c)).bind fun i => .ok ([0], s.sib i) else .ok ([], c)).bind fun (pre, c) =>
  (labels s base 256 c).bind fun l =>
  .ok (pre ++ match label with
    | none => l
    | some x => l.takeWhile (· < x) ++ x :: l.dropWhile (· < x))

/-- cedar.hpp:603-604: whether all labels but the first one fit -/
def fits (s : Da) (base : Nat) : List Nat → Res Bool
  | [] => .ok true
  | c :: cs => (s.nidx (base ^^^ c)).bind fun i => if (s.cell i).check < 0 then fits s base cs else .ok false

/-- cedar.hpp:601-606: the loop over the ring of empty cells of a block -/
def exploreRing (s : Da) (bi : Nat) (first : Nat) (rest : List Nat) : Nat → Nat → Res (Option Nat)
  | 0, _ => .error .loop
  | fuel + 1, e =>
    (s.nidx e).bind fun e =>
    (fits s (e ^^^ first) rest).bind fun ok =>
    if ok then .ok (some e) else
      (s.idx (-(s.cell e).check)).bind fun e' =>
      if e' = (s.blk bi).ehead then .ok none else exploreRing s bi first rest fuel e'

/-- cedar.hpp:598-614: the loop over the open blocks; the result is the place found. -/
def exploreOpen (bz first : Nat) (rest : List Nat) : Nat → Da → Nat → Res (Da × Option Nat)
  | 0, _, _ => .error .loop
  | fuel + 1, s, bi =>
    (s.bidx bi).bind fun bi =>
    let nc := rest.length + 1
    (if nc ≤ (s.blk bi).num ∧ nc < (s.blk bi).reject then exploreRing s bi first rest 257 (s.blk bi).ehead else .ok none).bind fun r =>
    match r with
    | some e => .ok (s.setBlk bi fun b => { b with ehead := e }, some e)
    | none =>
      let s := s.setBlk bi fun b => { b with reject := nc }
      let s := if nc < s.rej (s.blk bi).num then { s with rej := upd s.rej (s.blk bi).num nc } else s
      let bi' := (s.blk bi).next
      let s := s.setBlk bi fun b => { b with trial := b.trial + 1 }
      (if (s.blk bi).trial = 1 then transfer s bi .O .C else .ok s).bind fun s =>
      if bi = bz then .ok (s, none) else exploreOpen bz first rest fuel s bi'

/-- cedar.hpp:593-617 `_find_place (first, last)` -/
def findPlaceN (s : Da) (first : Nat) (rest : List Nat) : Res (Da × Nat) :=
  (if s.hO ≠ 0 then (s.bidx s.hO).bind fun h => exploreOpen (s.blk h).prev first rest (s.size / 256) s h else .ok (s, none)).bind fun (s, r) =>
  match r with
  | some e => .ok (s, e)
  | none => (addBlock s).bind fun (s, b) => .ok (s, b * 256)

/-- cedar.hpp:655-656: adjust the `check` of the children -/
def adopt (s : Da) (base to' : Nat) : Nat → Nat → Res Da
  | 0, _ => .error .loop
  | fuel + 1, c =>
    (s.nidx (base ^^^ c)).bind fun i =>
    let s := s.setCheck i to'
    if s.sib i ≠ 0 then adopt s base to' fuel (s.sib i) else .ok s

/-- cedar.hpp:638-678: the loop of `_resolve`; `frm` is the node whose children move from `old` to `base`; `fn` is `from_n`. -/
def relocate (flag : Bool) (frm old base toPn labelN : Nat) : List Nat → Da → Nat → Res (Da × Nat)
  | [], s, fn => .ok (s, fn)
  | c :: cs, s, fn =>
    (popEnode s base c frm).bind fun (s, to') =>
    let t := old ^^^ c
    let s := { s with sib := upd s.sib to' (cs.headD 0) }
    if flag ∧ t = toPn then relocate flag frm old base toPn labelN cs s fn else
      (s.nidx t).bind fun t =>
      let b := (s.cell t).base
      let s := s.setBase to' b
      (if b > 0 ∧ c ≠ 0 then
        let s := { s with child := upd s.child to' (s.child t) }
        adopt s b.toNat to' 257 (s.child to')
      else .ok s).bind fun s =>
      let fn := if ¬ flag ∧ t = fn then to' else fn
      (if ¬ flag ∧ t = toPn then
        (pushSibling s fn (toPn ^^^ labelN) labelN true).bind fun s =>
        .ok { s with child := upd s.child t 0, cell := upd s.cell t ⟨if labelN ≠ 0 then -1 else 0, fn⟩ }
      else pushEnode s t).bind fun s => relocate flag frm old base toPn labelN cs s fn

/-- cedar.hpp:620-680 `_resolve`; the result is the new cell and `from_n`. -/
def resolve (s : Da) (fn : Nat) (bn labelN : Nat) : Res (Da × Nat × Nat) :=
  (s.nidx (bn ^^^ labelN)).bind fun toPn =>
  (s.idx (s.cell toPn).check).bind fun fp =>
  (s.idx (s.cell fp).base).bind fun bp =>
  (consult s bn bp 256 (s.child fn) (s.child fp)).bind fun flag =>
  (if flag then setChild s bn (s.child fn) (some labelN) else setChild s bp (s.child fp) none).bind fun l =>
  match l with
  | [] => .error .ub
  | first :: rest =>
    (if rest.isEmpty then findPlace s else findPlaceN s first rest).bind fun (s, e) =>
    let base := e ^^^ first
    let frm := if flag then fn else fp
    let old := if flag then bn else bp
    let s := if flag ∧ first = labelN then { s with child := upd s.child frm labelN } else s
    let s := s.setBase frm base
    (relocate flag frm old base toPn labelN l s fn).bind fun (s, fn) => .ok (s, if flag then base ^^^ labelN else toPn, fn)

/-- cedar.hpp:404-415 `_follow`; the result is the child and `from`. -/
def follow (s : Da) (frm label : Nat) : Res (Da × Nat × Nat) :=
  (s.nidx frm).bind fun frm =>
  let base := (s.cell frm).base
  let make (s : Da) : Res (Da × Nat × Nat) :=
    (popEnode s base label frm).bind fun (s, t) =>
    (pushSibling s frm (t ^^^ label) label (0 ≤ base)).bind fun s => .ok (s, t, frm)
  if base < 0 then make s else
    (s.nidx (base.toNat ^^^ label)).bind fun t =>
    if (s.cell t).check < 0 then make s
    else if (s.cell t).check ≠ frm then resolve s frm base.toNat label
    else .ok (s, t, frm)

/-- cedar.hpp:163-188 `update` for a key of one character; the result is `from`. -/
def update (s : Da) (frm : Nat) (c : Nat) (val : Int) : Res (Da × Nat) :=
  (follow s frm c).bind fun (s, node, _) =>
  (follow s node 0).bind fun (s, t, node) =>
  .ok (s.setBase t ((s.cell t).base + val), node)

/-- the answers of `_find` -/
inductive Ans where
  | noPath
  | noValue
  | val (v : Int)
deriving DecidableEq, Repr

/-- cedar.hpp:417-435 `_find` for a key of one character; the result contains `from`. -/
def traverse (s : Da) (frm : Nat) (c : Nat) : Res (Ans × Nat) :=
  (s.nidx frm).bind fun frm =>
  if (s.cell frm).base < 0 then .error .ub else
  (s.nidx ((s.cell frm).base.toNat ^^^ c)).bind fun t =>
  if (s.cell t).check ≠ frm then .ok (.noPath, frm) else
    (s.idx (s.cell t).base).bind fun v =>
    .ok (if (s.cell v).check ≠ t then .noValue else .val (s.cell v).base, t)

/-! ## CedarTrie.hpp -/

/-- CedarTrie.hpp:53-55: `m_trie`, `m_ids`, `m_roots`; and the `search_pos` of the node the caller holds. -/
structure Trie where
  da : Da
  ids : Nat
  roots : Arr Nat
  cur : Nat

/-- :36 -/
def hidden : Int := -3

/-- :57-89 `_find_or_insert` -/
def foi1 (s : Trie) (c : Nat) (incr : Bool) : Res (Trie × Nat × Bool) :=
  (traverse s.da s.cur c).bind fun (a, frm) =>
  match a with
  | .val v => .ok ({ s with cur := frm }, (v - 1).toNat, false)
  | _ =>
    let ids := if incr then s.ids + 1 else s.ids
    (update s.da frm c (if incr then ids else hidden)).bind fun (da, frm) =>
    .ok ({ s with da := da, ids := ids, cur := frm }, ids - 1, true)

/-- :240-264 `find_or_insert` -/
def foi (s : Trie) (c : UInt8) : Res (Trie × Nat × Bool) :=
  if c = 0 then (foi1 s 255 false).bind fun (s, _) => foi1 s 254 true
  else if c = 255 then (foi1 s 255 false).bind fun (s, _) => foi1 s 255 true
  else foi1 s c.toNat true

/-- :174-227 `add_rootnode` -/
def addRoot (s : Trie) (c : UInt8) : Res Trie :=
  if c ≠ 0 ∧ c ≠ 255 then
    (update s.da 0 c.toNat c.toNat).bind fun (da, p) =>
    .ok { s with da := da, ids := s.ids + 1, roots := upd s.roots c.toNat p }
  else
    (traverse s.da 0 255).bind fun (a, frm) =>
    (show Res (Da × Nat) from match a with
      | .val _ => .ok (s.da, frm)
      | _ => update s.da frm 255 hidden).bind fun (da, frm) =>
    (update da frm (if c = 0 then 254 else 255) c.toNat).bind fun (da, p) =>
    .ok { s with da := da, ids := s.ids + 1, roots := upd s.roots c.toNat p }

/-- :168-171, 229-238 -/
def fresh : Trie := ⟨init, 0, .of fun _ => 0, 0⟩

/-- The trie as the compressors see it. -/
def cedarTrie : TrieImpl where
  σ := Res Trie
  empty := .ok fresh
  addRoot s c := s.bind fun s => addRoot s c
  getRoot s c := (s.bind fun s => .ok { s with cur := s.roots c.toNat }, c.toNat)
  findOrInsert s _ c := s.bind fun s => (foi s c).bind fun (s, r) => .ok (.ok s, r)
  size s := match s with | .ok s => s.ids | .error _ => 0
  clear s := s.bind fun _ => .ok fresh

end Tdc.Cedar
