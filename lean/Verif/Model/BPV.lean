import Verif.Model.Basic

/-!
# `BitPackingVector`

The vector of `w`-bit integers behind `IntVector<uint_t<N>>` (`N` not a multiple of 8) and `DynamicIntVector`.
Source: `include/tudocomp/ds/BitPackingVector.hpp`, `IntPtr.hpp`, `IntRepr.hpp`.

The backing `std::vector<uint64_t>` is modelled by the list of its bits, least significant bit of the first word first, so its length is
64 times the number of words.  `sdsl::bits::read_int`/`write_int`/`move_left`/`move_right` (not part of the repository) are taken to
read and write `w` bits at a bit position; a position (word pointer, offset) is the bit position `64 * pointer + offset`.  Touching
bits outside of the memory is `Fault.ub`.
-/

namespace Tdc
namespace BPV

/-- The number of a list of bits, least significant first. -/
def valLE : List Bool → Nat
  | [] => 0
  | b :: bs => b.toNat + 2 * valLE bs

/-- The `w` least significant bits of a number, least significant first. -/
def bitsLE : Nat → Nat → List Bool
  | 0, _ => []
  | w + 1, v => (v % 2 == 1) :: bitsLE w (v / 2)

/-- `sdsl::bits::read_int` of `w` bits at bit position `p` (IntRepr.hpp:23-25, 36-41). -/
def rdBits (mem : List Bool) (p w : Nat) : Res Nat := if p + w ≤ mem.length then .ok (valLE ((mem.drop p).take w)) else .error .ub

/-- `sdsl::bits::write_int` of `w` bits at bit position `p` (IntRepr.hpp:20-22, 27-35); higher bits of the value are dropped. -/
def wrBits (mem : List Bool) (p w v : Nat) : Res (List Bool) := if p + w ≤ mem.length then .ok (mem.take p ++ bitsLE w v ++ mem.drop (p + w)) else .error .ub

/-- `bits2backing_w` (BitPackingVector.hpp:69-74). -/
def words (bits : Nat) : Nat := if bits = 0 then 0 else (bits - 1) / 64 + 1

/-- `std::vector::resize(n, 0)` on the backing. -/
def memResize (mem : List Bool) (n : Nat) : List Bool := mem.take (64 * n) ++ List.replicate (64 * n - mem.length) false

/-- The representation (IntRepr.hpp:98-131): `m_vec`, `m_real_size`, the width, and whether the width is a template argument. -/
structure Vec where
  w : Nat
  size : Nat
  mem : List Bool
  fixed : Bool
deriving DecidableEq

/-- `set_width_raw` (IntRepr.hpp:113, 130): ignored for fixed widths. -/
def Vec.setW (s : Vec) (w : Nat) : Vec := if s.fixed then s else { s with w := w }

/-- Default constructor of the dynamic (width 64) and fixed representations (IntRepr.hpp:105-106, 122-123). -/
def Vec.mk0 (fixed : Option Nat) : Vec := { w := fixed.getD 64, size := 0, mem := [], fixed := fixed.isSome }

/-- `operator[]`/`at` read access (BitPackingVector.hpp:266-271, IntPtr.hpp:248-251). -/
def Vec.get (s : Vec) (i : Nat) : Res Nat := rdBits s.mem (i * s.w) s.w

/-- Assignment through `operator[]` (BitPackingVector.hpp:259-264, IntPtr.hpp:304-312). -/
def Vec.set (s : Vec) (i v : Nat) : Res Vec :=
  match wrBits s.mem (i * s.w) s.w v with
  | .error e => .error e
  | .ok m => .ok { s with mem := m }

/-- A loop `for (a = begin() + i; n times; ++a) *a = val` (BitPackingVector.hpp:237-239, 394-396, 531-537). -/
def fill (w v : Nat) : Nat → Nat → List Bool → Res (List Bool)
  | 0, _, mem => .ok mem
  | n + 1, i, mem =>
    match wrBits mem (i * w) w v with
    | .error e => .error e
    | .ok mem => fill w v n (i + 1) mem

/-- `resize(n)` (BitPackingVector.hpp:228-231). -/
def Vec.resize (s : Vec) (n : Nat) : Vec := { s with size := n, mem := memResize s.mem (words (n * s.w)) }

/-- `resize(n, val)` (BitPackingVector.hpp:233-241). -/
def Vec.resizeV (s : Vec) (n v : Nat) : Res Vec :=
  let s' := s.resize n
  if s.size < n then
    match fill s'.w v (n - s.size) s.size s'.mem with
    | .error e => .error e
    | .ok m => .ok { s' with mem := m }
  else .ok s'

/-- The constructor with a number, a value and a width (BitPackingVector.hpp:116-124); reserving has no observable effect. -/
def Vec.mkN (fixed : Option Nat) (n v w : Nat) : Res Vec := ((Vec.mk0 fixed).setW w).resizeV n v

/-- The `while` loop of `push_back` (BitPackingVector.hpp:334-336): words are added until the elements fit (at most one is missing
for widths up to 64). -/
def pushWords (bits : Nat) : Nat → List Bool → List Bool
  | 0, mem => mem
  | n + 1, mem => if bits > mem.length then pushWords bits n (mem ++ List.replicate 64 false) else mem

/-- `push_back` (BitPackingVector.hpp:331-339). -/
def Vec.push (s : Vec) (v : Nat) : Res Vec :=
  ({ s with size := s.size + 1, mem := pushWords ((s.size + 1) * s.w) ((s.size + 1) * s.w) s.mem } : Vec).set s.size v

/-- The `while` loop of `pop_back` (BitPackingVector.hpp:349-351). -/
def popWords (bits : Nat) : Nat → List Bool → List Bool
  | 0, mem => mem
  | n + 1, mem => if 64 * words bits < mem.length then popWords bits n (mem.take (mem.length - 64)) else mem

/-- `pop_back` (BitPackingVector.hpp:346-352); on an empty vector it is undefined. -/
def Vec.pop (s : Vec) : Res Vec :=
  if s.size = 0 then .error .ub
  else .ok { s with size := s.size - 1, mem := popWords ((s.size - 1) * s.w) s.mem.length s.mem }

/-- The moving loop of `insert` (BitPackingVector.hpp:385-389), for `k` elements ending before `o`, to the positions ending before `q`. -/
def moveBack (w : Nat) : Nat → Nat → Nat → List Bool → Res (List Bool)
  | 0, _, _, mem => .ok mem
  | k + 1, o, q, mem =>
    match rdBits mem ((o - 1) * w) w with
    | .error e => .error e
    | .ok v =>
      match wrBits mem ((q - 1) * w) w v with
      | .error e => .error e
      | .ok mem => moveBack w k (o - 1) (q - 1) mem

/-- `insert(position, n, val)` (BitPackingVector.hpp:358-401), the position given as an index. -/
def Vec.insertN (s : Vec) (p n v : Nat) : Res Vec :=
  let extra := s.mem.length - s.size * s.w
  let need := if n * s.w > extra then n * s.w - extra else 0
  let mem := s.mem ++ List.replicate (64 * words need) false
  match moveBack s.w (s.size - p) s.size (s.size + n) mem with
  | .error e => .error e
  | .ok mem =>
    match fill s.w v n p mem with
    | .error e => .error e
    | .ok mem => .ok { s with size := s.size + n, mem := mem }

/-- `insert(position, first, last)` (BitPackingVector.hpp:403-417): one element at a time. -/
def Vec.insertL (s : Vec) (p : Nat) : List Nat → Res Vec
  | [] => .ok s
  | v :: vs =>
    match s.insertN p 1 v with
    | .error e => .error e
    | .ok s => s.insertL (p + 1) vs

/-- `std::copy` of `k` elements from index `o` to index `q`, ascending (BitPackingVector.hpp:436). -/
def moveFwd (w : Nat) : Nat → Nat → Nat → List Bool → Res (List Bool)
  | 0, _, _, mem => .ok mem
  | k + 1, o, q, mem =>
    match rdBits mem (o * w) w with
    | .error e => .error e
    | .ok v =>
      match wrBits mem (q * w) w v with
      | .error e => .error e
      | .ok mem => moveFwd w k (o + 1) (q + 1) mem

/-- `erase(first, last)` (BitPackingVector.hpp:432-443), positions as indices. -/
def Vec.erase (s : Vec) (a b : Nat) : Res Vec :=
  match moveFwd s.w (s.size - b) b a s.mem with
  | .error e => .error e
  | .ok mem =>
    let size := s.size - (b - a)
    .ok { s with size := size, mem := mem.take (mem.length - (mem.length - 64 * words (size * s.w))) }

/-- `clear` (BitPackingVector.hpp:454-457). -/
def Vec.clear (s : Vec) : Vec := { s with size := 0, mem := [] }

/-- The growing loop of `resize(n, val, w)` (BitPackingVector.hpp:507-513): from the last common element down. -/
def regridUp (ow nw : Nat) : Nat → List Bool → Res (List Bool)
  | 0, mem => .ok mem
  | i + 1, mem =>
    match rdBits mem (i * ow) ow with
    | .error e => .error e
    | .ok v =>
      match wrBits mem (i * nw) nw v with
      | .error e => .error e
      | .ok mem => regridUp ow nw i mem

/-- The shrinking loop of `resize(n, val, w)` (BitPackingVector.hpp:523-526): `k` elements from index `i` up. -/
def regridDown (ow nw : Nat) : Nat → Nat → List Bool → Res (List Bool)
  | 0, _, mem => .ok mem
  | k + 1, i, mem =>
    match rdBits mem (i * ow) ow with
    | .error e => .error e
    | .ok v =>
      match wrBits mem (i * nw) nw v with
      | .error e => .error e
      | .ok mem => regridDown ow nw k (i + 1) mem

/-- The width change of `resize(n, val, w)` (BitPackingVector.hpp:478-532); nothing happens if the width is the same. -/
def Vec.regrid (s : Vec) (n w : Nat) : Res Vec :=
  if s.w < w then
    match regridUp s.w w (min s.size n) (memResize s.mem (words (n * w))) with
    | .error e => .error e
    | .ok m => .ok (({ s with size := n, mem := m } : Vec).setW w)
  else if w < s.w then
    match regridDown s.w w (min s.size n) 0 s.mem with
    | .error e => .error e
    | .ok m => .ok (({ s with size := n, mem := memResize m (words (n * w)) } : Vec).setW w)
  else .ok s

/-- `resize(n, val, w)` (BitPackingVector.hpp:478-541): the new elements are those between the old size and the current one. -/
def Vec.resizeW (s : Vec) (n v w : Nat) : Res Vec :=
  match s.regrid n w with
  | .error e => .error e
  | .ok s' =>
    if s.size < n then
      match fill s'.w v (s'.size - s.size) s.size s'.mem with
      | .error e => .error e
      | .ok m => .ok { s' with mem := m }
    else .ok s'

/-- `width(w)` (BitPackingVector.hpp:473-476). -/
def Vec.width (s : Vec) (w : Nat) : Res Vec := s.resizeW s.size 0 w

/-- `assign(n, val)` (BitPackingVector.hpp:323-325, 101-114, 140-145): a vector of the default width. -/
def Vec.assign (s : Vec) (n v : Nat) : Res Vec := (Vec.mk0 (if s.fixed then some s.w else none)).resizeV n v

/-- What the move constructor and move assignment leave behind (IntRepr.hpp:109-110, 126-127, BitPackingVector.hpp:147-152). -/
def Vec.movedFrom (s : Vec) : Vec := { s with mem := [] }

/-- `capacity()` for a backing with room for `n` words (BitPackingVector.hpp:243-245, 79-84). -/
def capacity (n w : Nat) : Nat := if 64 * n = 0 then 0 else (64 * n - 1) / w + 1

/-- `read_int` at consecutive positions, compared: `std::equal` over the last `k` elements (BitPackingVector.hpp:569). -/
def eqTail (s t : Vec) : Nat → Res Bool
  | 0 => .ok true
  | k + 1 =>
    match rdBits s.mem ((s.size - (k + 1)) * s.w) s.w, rdBits t.mem ((t.size - (k + 1)) * t.w) t.w with
    | .ok a, .ok b => if a = b then eqTail s t k else .ok false
    | _, _ => .error .ub

/-- `operator==` (BitPackingVector.hpp:551-573), for vectors of the same width. -/
def Vec.eq (s t : Vec) : Res Bool :=
  if s.size = t.size then
    let extra := s.mem.length - s.size * s.w
    if extra = 0 then .ok (s.mem == t.mem)
    else if s.mem.take (s.mem.length - 64) == t.mem.take (s.mem.length - 64) then
      eqTail s t ((64 - extra - 1) / s.w + 1)
    else .ok false
  else .ok false

/-! ### Iterators -/

/-- An iterator (IntRepr.hpp:66-97): word pointer, bit offset below 64 and width. -/
structure It where
  ptr : Nat
  off : Nat
  w : Nat
deriving DecidableEq

/-- The iterator to element `i` (BitPackingVector.hpp:89-98, 159-169). -/
def It.at (i w : Nat) : It := { ptr := i * w / 64, off := i * w % 64, w := w }

/-- `operator++` (IntPtr.hpp:130-135), with sdsl's `move_right`. -/
def It.next (a : It) : It := { a with ptr := (64 * a.ptr + a.off + a.w) / 64, off := (64 * a.ptr + a.off + a.w) % 64 }

/-- `operator-` of two iterators (IntPtr.hpp:161-170): in unsigned 64 bit arithmetic, converted to signed at the end. -/
def It.diff (a b : It) : Int :=
  let d := (((((a.ptr : Int) - b.ptr) * 64 + a.off - b.off) % 2 ^ 64).toNat) / a.w
  if d < 2 ^ 63 then (d : Int) else (d : Int) - 2 ^ 64

/-- `operator==` of iterators (IntPtr.hpp:172-176). -/
def It.eq (a b : It) : Bool := decide (a.ptr = b.ptr) && decide (a.off = b.off)
/-- `operator<` of iterators (IntPtr.hpp:177-183). -/
def It.lt (a b : It) : Bool := decide (a.ptr < b.ptr) || (decide (a.ptr = b.ptr) && decide (a.off < b.off))
/-- `operator>` of iterators (IntPtr.hpp:185). -/
def It.gt (a b : It) : Bool := !a.lt b
/-- `operator<=` (IntPtr.hpp:187). -/
def It.le (a b : It) : Bool := a.lt b || a.eq b
/-- `operator>=` (IntPtr.hpp:186). -/
def It.ge (a b : It) : Bool := a.gt b || a.eq b

end BPV
end Tdc
