import Verif.Model.Basic
import Verif.Model.BitIO

/-!
# `ArrayMaxHeap`: a binary max heap over an external array of keys

Source: `include/tudocomp/ds/ArrayMaxHeap.hpp`, release build (the `DCHECK`s and the paranoid checks are not compiled).

Positions and indices are `len_t`/`size_t` in the code; the model uses naturals (the heap has fewer than `2^31` items, so `2*pos+2` does
not overflow).  The key array is part of the state because `decrease_key` writes to it.
-/

namespace Tdc
namespace AMH

/-- The object together with the key array it refers to (ArrayMaxHeap.hpp:38-49). -/
structure Heap where
  keys : List Nat
  undef : Nat
  size : Nat
  heap : List Nat
  pos : List Nat
deriving DecidableEq, Repr

/-- `v[i]` read; outside the vector undefined. -/
def rd (v : List Nat) (i : Nat) : Res Nat :=
  match v[i]? with
  | some x => .ok x
  | none => .error .ub

/-- `v[i] = x` for a `DynamicIntVector` of width `w`; outside the vector undefined. -/
def wr (w : Nat) (v : List Nat) (i x : Nat) : Res (List Nat) := if i < v.length then .ok (v.set i (x % 2 ^ w)) else .error .ub

/-- `lc` (ArrayMaxHeap.hpp:26-28). -/
def lc (i : Nat) : Nat := 2 * i + 1
/-- `rc` (ArrayMaxHeap.hpp:30-32). -/
def rc (i : Nat) : Nat := 2 * i + 2
/-- `parent` (ArrayMaxHeap.hpp:34-36), only called for `i > 0`. -/
def parent (i : Nat) : Nat := (i - 1) / 2

/-- The width of `m_heap` (ArrayMaxHeap.hpp:68). -/
def Heap.wHeap (h : Heap) : Nat := bitsFor (h.keys.length - 1)
/-- The width of `m_pos` (ArrayMaxHeap.hpp:70). -/
def Heap.wPos (h : Heap) : Nat := bitsFor h.undef

/-- `put` (ArrayMaxHeap.hpp:51-54). -/
def Heap.put (h : Heap) (p i : Nat) : Res Heap := do
  let hp ← wr h.wHeap h.heap p i
  let ps ← wr h.wPos h.pos i p
  pure { h with heap := hp, pos := ps }

/-- The constructor (ArrayMaxHeap.hpp:65-71); `array_size` is the number of keys. -/
def Heap.init (keys : List Nat) (cap : Nat) : Heap :=
  { keys := keys, undef := cap, size := 0, heap := List.replicate cap 0,
    pos := List.replicate keys.length (cap % 2 ^ bitsFor cap) }

/-- The key of the item at position `p` of the heap, `(*m_array)[m_heap[p]]`. -/
def Heap.keyAt (h : Heap) (p : Nat) : Res Nat := do
  let i ← rd h.heap p
  rd h.keys i

/-- The percolation loop of `insert` (ArrayMaxHeap.hpp:84-87). -/
def percUp (h : Heap) (ki : Nat) (pos : Nat) : Res (Heap × Nat) :=
  if hp : pos = 0 then .ok (h, pos) else
    match h.keyAt (parent pos) with
    | .error e => .error e
    | .ok kp =>
      if ki > kp then
        match rd h.heap (parent pos) with
        | .error e => .error e
        | .ok j =>
          match h.put pos j with
          | .error e => .error e
          | .ok h => percUp h ki (parent pos)
      else .ok (h, pos)
termination_by pos
decreasing_by simp only [parent]; omega

/-- `insert` (ArrayMaxHeap.hpp:77-95). -/
def Heap.insert (h : Heap) (i : Nat) : Res Heap := do
  let ki ← rd h.keys i
  let (h, pos) ← percUp { h with size := h.size + 1 } ki h.size
  h.put pos i

/-- `perlocation_dir_t` (ArrayMaxHeap.hpp:20-24). -/
inductive Dir where
  | none | left | right
deriving DecidableEq

/-- The choice of the direction (ArrayMaxHeap.hpp:107-129). -/
def dir (k kk l r pos : Nat) : Dir :=
  if kk < l ∧ kk < r then (if l > r then .left else .right)
  else if kk < l then .left
  else if kk < r then .right
  else if kk = l ∧ kk = r then (if lc pos < rc pos then .left else .right)
  else if kk = l ∧ k > lc pos then .left
  else if kk = r ∧ k > rc pos then .right
  else .none

/-- The key of a child position, `0` if there is no such child (ArrayMaxHeap.hpp:103-104). -/
def Heap.childKey (h : Heap) (c : Nat) : Res Nat := if c < h.size then h.keyAt c else .ok 0

/-- The loop of `perlocate_down` (ArrayMaxHeap.hpp:102-142) and the final `put` (144).  Every pass that does not end the loop reads
`m_heap` at a larger position, so `fuel := m_heap.size() + 1` passes suffice. -/
def percDownLoop (k kk : Nat) : Nat → Heap → Nat → Res Heap
  | 0, _, _ => .error .loop
  | fuel + 1, h, pos => do
    let l ← h.childKey (lc pos)
    let r ← h.childKey (rc pos)
    match dir k kk l r pos with
    | .left => do
      let j ← rd h.heap (lc pos)
      let h ← h.put pos j
      percDownLoop k kk fuel h (lc pos)
    | .right => do
      let j ← rd h.heap (rc pos)
      let h ← h.put pos j
      percDownLoop k kk fuel h (rc pos)
    | .none => h.put pos k

/-- `perlocate_down` (ArrayMaxHeap.hpp:98-145). -/
def Heap.percDown (h : Heap) (pos k : Nat) : Res Heap := do
  let kk ← rd h.keys k
  percDownLoop k kk (h.heap.length + 1) h pos

/-- `remove` (ArrayMaxHeap.hpp:152-169); `--m_size` wraps around modulo `2^64` at zero. -/
def Heap.remove (h : Heap) (i : Nat) : Res Heap := do
  let pos ← rd h.pos i
  if pos = h.undef then pure h
  else do
    let s := (h.size + 2 ^ 64 - 1) % 2 ^ 64
    let k ← rd h.heap s
    let h ← { h with size := s }.percDown pos k
    let ps ← wr h.wPos h.pos i h.undef
    pure { h with pos := ps }

/-- `decrease_key` (ArrayMaxHeap.hpp:177-193). -/
def Heap.decreaseKey (h : Heap) (i v : Nat) : Res Heap := do
  let _ ← rd h.keys i
  let h := { h with keys := h.keys.set i v }
  let pos ← rd h.pos i
  if pos = h.undef then pure h else h.percDown pos i

/-- `contains` (ArrayMaxHeap.hpp:199-201). -/
def Heap.contains (h : Heap) (i : Nat) : Res Bool := do
  let p ← rd h.pos i
  pure (decide (p ≠ h.undef))

/-- `get_max`, `top` (ArrayMaxHeap.hpp:211-219). -/
def Heap.getMax (h : Heap) : Res Nat := rd h.heap 0

/-- `key` (ArrayMaxHeap.hpp:225-227). -/
def Heap.key (h : Heap) (i : Nat) : Res Nat := rd h.keys i

/-! ### Histories -/

/-- The modifying operations of the class. -/
inductive Op where
  | insert (i : Nat)
  | remove (i : Nat)
  | decreaseKey (i v : Nat)
deriving DecidableEq

/-- One operation. -/
def Heap.step (h : Heap) : Op → Res Heap
  | .insert i => h.insert i
  | .remove i => h.remove i
  | .decreaseKey i v => h.decreaseKey i v

/-- A history of operations. -/
def Heap.run (h : Heap) : List Op → Res Heap
  | [] => .ok h
  | o :: os =>
    match h.step o with
    | .error e => .error e
    | .ok h => h.run os

end AMH
end Tdc
