import Verif.Model.Rank
import Verif.Model.TextDS

/-!
# ds/SparseISA.hpp: the inverse suffix array by short cuts on the cycles of the suffix array

Bit vectors are lists of bits while they are written (`v`, `m_has_shortcut`); `m_rank` is built on their packed form (`BV.ofBits`).
-/

namespace Tdc
namespace RS

/-- A 64 bit word from its bits, lowest first. -/
def packWord : List Bool → Nat
  | [] => 0
  | b :: l => b.toNat + 2 * packWord l

/-- The packed form of a bit vector (IntVector.hpp:130-134: 64 bits per word, the padding of a fresh vector is zero). -/
def BV.ofBits (l : List Bool) : BV := ⟨(List.range (idivCeil l.length 64)).map fun j => packWord ((l.drop (64 * j)).take 64), l.length⟩

end RS

namespace SI
open RS

/-- `k % t` is undefined for `t = 0` (ds/SparseISA.hpp:68) -/
def umod (k t : Nat) : Res Nat := if t = 0 then .error .ub else .ok (k % t)

/-- ds/SparseISA.hpp:67-75: `while(j != i) { if((k % t) == 0) m_has_shortcut[j] = 1; v[j] = 1; j = sa[j]; ++k; }` -/
def cycLoop (sa : List Nat) (t i : Nat) : Nat → Nat → Nat → List Bool → List Bool → Res (Nat × List Bool × List Bool)
  | 0, _, _, _, _ => .error .loop
  | fuel + 1, j, k, v, hs =>
    if j = i then .ok (k, v, hs) else do
      let m ← umod k t
      let hs ← (if m = 0 then vset hs j true else .ok hs)
      let v ← vset v j true
      let j ← vget sa j
      cycLoop sa t i fuel j (k + 1) v hs

/-- ds/SparseISA.hpp:61-78, one round of the first loop; the state is `v`, `m_has_shortcut`. -/
def markStep (sa : List Nat) (t : Nat) (s : List Bool × List Bool) (i : Nat) : Res (List Bool × List Bool) := do
  let b ← vget s.1 i
  if b then .ok s else do
    let v ← vset s.1 i true
    let j ← vget sa i
    let (k, v, hs) ← cycLoop sa t i (sa.length + 1) j 1 v s.2
    if k > t then do
      let hs ← vset hs i true
      .ok (v, hs)
    else .ok (v, hs)

/-- ds/SparseISA.hpp:59-79 -/
def mark (sa : List Nat) (t : Nat) : Res (List Bool × List Bool) :=
  (List.range sa.length).foldlM (markStep sa t) (List.replicate sa.length false, List.replicate sa.length false)

/-- ds/SparseISA.hpp:90, 98: `m_shortcuts[m_rank(j)-1] = i`; entries have `w` bits. -/
def putShort (R : Rank) (w j i : Nat) (sc : List Nat) : Res (List Nat) := do
  let r ← R.rank1 j
  vset sc (r - 1) (i % 2 ^ w)

/-- ds/SparseISA.hpp:88-95: the inner loop of the second phase; result: `i`, `j`, `v` and the shortcuts. -/
def linkLoop (sa : List Nat) (hs : List Bool) (R : Rank) (w : Nat) : Nat → Nat → Nat → List Bool → List Nat →
    Res (Nat × Nat × List Bool × List Nat)
  | 0, _, _, _, _ => .error .loop
  | fuel + 1, i, j, v, sc => do
    let b ← vget v j
    if b then do
      let h ← vget hs j
      let sc ← (if h then putShort R w j i sc else .ok sc)
      let v ← vset v j false
      let j' ← vget sa j
      linkLoop sa hs R w fuel (if h then j else i) j' v sc
    else .ok (i, j, v, sc)

/-- ds/SparseISA.hpp:85-102, one round of the second loop at loop variable `i`; result: the loop variable before `i++`, `v`,
the shortcuts. -/
def linkStep (sa : List Nat) (hs : List Bool) (R : Rank) (w i : Nat) (v : List Bool) (sc : List Nat) : Res (Nat × List Bool × List Nat) := do
  let b ← vget v i
  if b then do
    let v ← vset v i false
    let j ← vget sa i
    let (i, j, v, sc) ← linkLoop sa hs R w (sa.length + 1) i j v sc
    let h ← vget hs j
    let sc ← (if h then putShort R w j i sc else .ok sc)
    .ok (j, v, sc)
  else .ok (i, v, sc)

/-- ds/SparseISA.hpp:84-103: `for(i = 0; i < n; i++)`, where the body also moves `i`. -/
def link (sa : List Nat) (hs : List Bool) (R : Rank) (w : Nat) : Nat → Nat → List Bool → List Nat → Res (List Nat)
  | 0, _, _, _ => .error .loop
  | fuel + 1, i, v, sc =>
    if i < sa.length then do
      let (i, v, sc) ← linkStep sa hs R w i v sc
      link sa hs R w fuel (i + 1) v sc
    else .ok sc

/-- The members (ds/SparseISA.hpp:22-27). -/
structure SISA where
  sa : List Nat
  hs : List Bool
  rank : Rank
  sc : List Nat

/-- The constructor (ds/SparseISA.hpp:41-105). `m_rank(n-1)` is called with the wrapped `n - 1` for `n = 0`. -/
def build (sa : List Nat) (t : Nat) : Res SISA := do
  let n := sa.length
  let (v, hs) ← mark sa t
  let R ← Rank.build (BV.ofBits hs)
  let m ← R.rank1 (if n = 0 then 2 ^ 64 - 1 else n - 1)
  let sc ← link sa hs R (bitsFor n) (n + 1) 0 v (List.replicate m 0)
  .ok ⟨sa, hs, R, sc⟩

/-- ds/SparseISA.hpp:113-118: one round of the loop of `operator[]`. -/
def hop (S : SISA) (j : Nat) (s : Bool) : Res (Nat × Bool) := do
  let h ← (if s then vget S.hs j else .ok false)
  if h then do
    let r ← S.rank.rank1 j
    let j ← vget S.sc (r - 1)
    .ok (j, false)
  else do
    let j ← vget S.sa j
    .ok (j, s)

/-- ds/SparseISA.hpp:112-119: the loop; at most `fuel` tests of the loop condition. -/
def queryLoop (S : SISA) (i : Nat) : Nat → Nat → Bool → Res Nat
  | 0, _, _ => .error .loop
  | fuel + 1, j, s => do
    let x ← vget S.sa j
    if x = i then .ok j else do
      let (j, s) ← hop S j s
      queryLoop S i fuel j s

/-- `operator[]` (ds/SparseISA.hpp:108-121). -/
def query (S : SISA) (fuel i : Nat) : Res Nat := queryLoop S i fuel i true

/-- test: build and ask everything -/
def askAll (sa : List Nat) (t : Nat) : Res (List Nat) := do
  let S ← build sa t
  (List.range sa.length).mapM (query S (2 * t + 1))

end SI
end Tdc
