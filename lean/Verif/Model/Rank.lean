import Verif.Model.Basic
import Verif.Model.BitIO

/-!
# Rank and Select on bit vectors

Sources: `include/tudocomp/ds/Rank.hpp`, `rank_64bit.hpp`, `Select.hpp`, `select_64bit.hpp`.

A `BitVector` is `IntVector<uint_t<1>>`, a bit packed vector whose `data()` is an array of 64 bit words (`IntVector.hpp:130-134, 545`,
`IntRepr.hpp:99-115, 163-172`).  The model keeps the array of words (naturals below `2^64`) and the size `n` in bits; the last word may
contain *padding* bits at positions `n` and above, whose values are arbitrary here.

The `DynamicIntVector`s of the structures are lists of naturals; storing a value reduces it modulo `2^width`.
-/

namespace Tdc
namespace RS

/-- A bit vector: its words and its size. -/
structure BV where
  data : List Nat
  n : Nat

/-- `data()[j]`; outside the array undefined. -/
def rd (data : List Nat) (j : Nat) : Res Nat :=
  match data[j]? with
  | some v => .ok v
  | none => .error .ub

/-- Element access of a `DynamicIntVector` (`IntVector::operator[]`); outside the backing undefined. -/
def wr (v : List Nat) (i x : Nat) : Res (List Nat) := if i < v.length then .ok (v.set i x) else .error .ub

/-! ### 64 bit words -/

/-- `rank1(v)` = `__builtin_popcountll(v)` (rank_64bit.hpp:75-77): the number of set bits of a 64 bit word. -/
def popcount (v : Nat) : Nat := (List.range 64).countP (fun k => v.testBit k)

/-- `rank1(v, m)` (rank_64bit.hpp:90-95): the mask is the all-ones word shifted right by `63 - m` (`m ≤ 63`). -/
def rank1m (v m : Nat) : Nat := popcount (v &&& ((2 ^ 64 - 1) >>> (63 - m)))

/-- `rank1(v, l, m)` (rank_64bit.hpp:109-120); the left shift keeps 64 bits. -/
def rank1lm (v l m : Nat) : Nat := popcount (v &&& ((2 ^ 64 - 1) >>> (63 - m)) &&& ((2 ^ 64 - 1) <<< l % 2 ^ 64))

/-- `rank0(v)` (rank_64bit.hpp:122-125). -/
def rank0w (v : Nat) : Nat := 63 + 1 - popcount v

/-- `rank0(v, l, m)` (rank_64bit.hpp:132-135). -/
def rank0lm (v l m : Nat) : Nat := (m - l + 1) - rank1lm v l m

/-- `SELECT_FAIL` (select_64bit.hpp:13). -/
def selectFail : Nat := 0xFF

/-- The loop of `select1(v, k)` (select_64bit.hpp:29-36), with the running position. -/
def select1Loop (v k pos : Nat) : Nat :=
  if h : v = 0 then selectFail
  else if v % 2 = 1 then
    if k - 1 = 0 then pos else select1Loop (v / 2) (k - 1) (pos + 1)
  else select1Loop (v / 2) k (pos + 1)
termination_by v
decreasing_by all_goals omega

/-- `select1(v, k)` (select_64bit.hpp:26-38), `k ≥ 1`. -/
def select1w (v k : Nat) : Nat := select1Loop v k 0

/-- `select1(v, l, k)` (select_64bit.hpp:49-53); shifting by 64 is undefined. -/
def select1l (v l k : Nat) : Res Nat :=
  if 64 ≤ l then .error .ub else
    let pos := select1w (v >>> l) k
    .ok (if pos ≠ selectFail then l + pos else selectFail)

/-- The loop of `select0(v, k)` (select_64bit.hpp:69-76); at the end `pos += k-1` and the range check (77-78). -/
def select0Loop (v k pos : Nat) : Nat :=
  if h : v = 0 then (if pos + (k - 1) ≤ 63 then pos + (k - 1) else selectFail)
  else if v % 2 = 0 then
    if k - 1 = 0 then pos else select0Loop (v / 2) (k - 1) (pos + 1)
  else select0Loop (v / 2) k (pos + 1)
termination_by v
decreasing_by all_goals omega

/-- `select0(v, k)` (select_64bit.hpp:66-79). -/
def select0w (v k : Nat) : Nat := select0Loop v k 0

/-- `select0(v, l, k)` (select_64bit.hpp:90-99). -/
def select0l (v l k : Nat) : Res Nat :=
  if 64 ≤ l then .error .ub else
    let pos := select0w (v >>> l) k
    .ok (if pos ≠ selectFail then (if pos + l ≤ 63 then pos + l else selectFail) else selectFail)

/-! ### Rank -/

/-- `block_size` (Rank.hpp:20-21): 64; superblocks have its square (Rank.hpp:83). -/
def blockSize : Nat := 64
/-- See `blockSize`. -/
def supSize : Nat := blockSize * blockSize

/-- A constructed `Rank` (Rank.hpp:26-30). -/
structure Rank where
  bv : BV
  blocks : List Nat
  sups : List Nat

/-- The state of the construction loop (Rank.hpp:104-106). -/
structure RankSt where
  blocks : List Nat
  sups : List Nat
  rankBv : Nat
  rankSb : Nat
  curSb : Nat

/-- One pass of the construction loop (Rank.hpp:108-122) for block `j`.  `w` is the width of the superblock entries (`bits_for(n)`,
Rank.hpp:99); block entries have `bits_for(4096)` bits (Rank.hpp:100). -/
def rankStep (data : List Nat) (w : Nat) (s : RankSt) (j : Nat) : Res RankSt := do
  let i := j / (supSize / blockSize)
  let s ← (if s.curSb < i then do
      let sups ← wr s.sups s.curSb (s.rankBv % 2 ^ w)
      pure { s with sups := sups, rankSb := 0, curSb := i }
    else pure s : Res RankSt)
  let v ← rd data j
  let r := popcount v
  let rankSb := s.rankSb + r
  let blocks ← wr s.blocks j (rankSb % 2 ^ bitsFor supSize)
  pure { s with blocks := blocks, rankSb := rankSb, rankBv := s.rankBv + r }

/-- The constructor (Rank.hpp:81-123). -/
def Rank.build (bv : BV) : Res Rank := do
  let numSup := idivCeil bv.n supSize
  let numBlk := idivCeil bv.n blockSize
  let s ← (List.range numBlk).foldlM (rankStep bv.data (bitsFor bv.n))
    { blocks := List.replicate numBlk 0, sups := List.replicate numSup 0, rankBv := 0, rankSb := 0, curSb := 0 }
  pure { bv := bv, blocks := s.blocks, sups := s.sups }

/-- `rank1(x)` (Rank.hpp:129-141). -/
def Rank.rank1 (R : Rank) (x : Nat) : Res Nat := do
  let i := x / supSize
  let r₀ ← (if i > 0 then rd R.sups (i - 1) else pure 0 : Res Nat)
  let j := x / blockSize
  let k := j - i * (supSize / blockSize)
  let r₁ ← (if k > 0 then rd R.blocks (j - 1) else pure 0 : Res Nat)
  let v ← rd R.bv.data j
  pure (r₀ + r₁ + rank1m v (x % blockSize))

/-- `rank1(x, y)` (Rank.hpp:148-153). -/
def Rank.rank1I (R : Rank) (x y : Nat) : Res Nat := do
  let r ← R.rank1 y
  if x > 0 then do
    let r' ← R.rank1 (x - 1)
    pure (r - r')
  else pure r

/-- `rank0(x)` (Rank.hpp:169-171). -/
def Rank.rank0 (R : Rank) (x : Nat) : Res Nat := do
  let r ← R.rank1 x
  pure (x + 1 - r)

/-- `rank0(x, y)` (Rank.hpp:178-180). -/
def Rank.rank0I (R : Rank) (x y : Nat) : Res Nat := do
  let r ← R.rank1I x y
  pure (y - x + 1 - r)

/-! ### Select -/

/-- The template variants of `Select<m_bit>` (Select.hpp:226-275). -/
structure Basic where
  rank : Nat → Nat
  ranklm : Nat → Nat → Nat → Nat
  select : Nat → Nat → Nat
  selectl : Nat → Nat → Nat → Res Nat

/-- `Select1` (Select.hpp:226-247). -/
def basic1 : Basic := ⟨popcount, rank1lm, select1w, select1l⟩
/-- `Select0` (Select.hpp:252-273). -/
def basic0 : Basic := ⟨rank0w, rank0lm, select0w, select0l⟩

/-- A constructed `Select` (Select.hpp:36-43). -/
structure Select where
  bv : BV
  max : Nat
  blockSize : Nat
  supSize : Nat
  blocks : List Nat
  sups : List Nat

/-- The state of the construction (Select.hpp:114-125). -/
structure SelSt where
  max : Nat
  rSb : Nat
  rB : Nat
  sups : List Nat
  blocks : List Nat
  curSb : Nat
  curSbOffset : Nat
  longestSb : Nat
  curB : Nat

/-- The change of superblock at a block boundary at `pos` (Select.hpp:155-164). -/
def selSup (b pos : Nat) (s : SelSt) : Res SelSt :=
  if s.rSb ≥ b * b then do
    let sups ← wr s.sups s.curSb (pos % 2 ^ b)
    pure { s with longestSb := Nat.max s.longestSb (pos - s.curSbOffset), curSbOffset := pos, sups := sups,
                  curSb := s.curSb + 1, rSb := s.rSb - b * b }
  else pure s

/-- The inner loop `while(r_b >= m_block_size)` (Select.hpp:146-171) in word number `i` with value `v`; `fuel` bounds the number of
passes (one per block boundary in the word, so 64 are enough).  Returns the state and `distance_sum`. -/
def selInner (B : Basic) (b i v : Nat) : Nat → SelSt → Nat → Nat → Nat → Res (SelSt × Nat)
  | 0, _, _, _, _ => .error .loop
  | fuel + 1, s, dist, offs, dsum =>
    if s.rB < b then .ok (s, dsum) else do
      let o ← B.selectl v offs dist
      let pos := i * 64 + o
      let dsum := dsum + dist
      let s := { s with rSb := s.rSb + dist }
      let s ← selSup b pos s
      let blocks ← wr s.blocks s.curB ((pos - s.curSbOffset) % 2 ^ b)
      let s := { s with blocks := blocks, curB := s.curB + 1, rB := s.rB - b }
      selInner B b i v fuel s b (o + 1) dsum

/-- One pass of the outer loop (Select.hpp:128-181), for word `i`. -/
def selStep (B : Basic) (b : Nat) (data : List Nat) (s : SelSt) (i : Nat) : Res SelSt := do
  let v ← rd data i
  let r := B.rank v
  let s := { s with max := s.max + r }
  if s.rB + r ≥ b then do
    let (s, dsum) ← selInner B b i v 65 { s with rB := s.rB + r } (b - s.rB) 0 0
    pure { s with rSb := s.rSb + (r - dsum) }
  else pure { s with rB := s.rB + r, rSb := s.rSb + r }

/-- The number of elements of `w` bits that fit into the 64 bit words allocated for `k` elements.  The constructor writes by
`operator[]`, which is checked against neither the size nor this number in a release build; writes up to this number stay inside the
allocation and survive the later `resize(cur_b)`. -/
def room (k w : Nat) : Nat := 64 * idivCeil (k * w) 64 / w

/-- The constructor (Select.hpp:101-192); `log_n` is both the block size and the width of the entries.  `n - cur_sb_offset` is
computed modulo `2^64`.  Changing the width of `m_blocks` (Select.hpp:187) keeps the low bits of its entries. -/
def Select.build (B : Basic) (bv : BV) : Res Select := do
  let b := bitsFor bv.n
  let s ← (List.range (idivCeil bv.n 64)).foldlM (selStep B b bv.data)
    { max := 0, rSb := 0, rB := 0, sups := List.replicate (room (idivCeil bv.n (b * b)) b) 0,
      blocks := List.replicate (room (idivCeil bv.n b) b) 0, curSb := 0, curSbOffset := 0, longestSb := 0, curB := 0 }
  let longest := Nat.max s.longestSb ((bv.n + 2 ^ 64 - s.curSbOffset) % 2 ^ 64)
  let wb := bitsFor longest
  pure { bv := bv, max := s.max, blockSize := b, supSize := b * b, blocks := (s.blocks.take s.curB).map (· % 2 ^ wb), sups := s.sups.take s.curSb }

/-- The linear search over the following words (Select.hpp:243-248); it ends at the latest when it leaves the array, which is
undefined, so `fuel` is the number of words. -/
def selScan (B : Basic) (data : List Nat) : Nat → Nat → Nat → Res Nat
  | 0, _, _ => .error .ub
  | fuel + 1, i, x => do
    let v ← rd data i
    let s := B.select v x
    if s = selectFail then selScan B data fuel (i + 1) (x - B.rank v) else pure (i * 64 + s)

/-- The search in the bit vector from position `pos` (Select.hpp:228-252). -/
def selSearch (B : Basic) (data : List Nat) (pos x : Nat) : Res Nat := do
  let i := pos / 64
  let offs := pos % 64
  let v ← rd data i
  let s ← B.selectl v offs x
  if s ≠ selectFail then pure (pos + s - offs)
  else selScan B data (data.length + 1) (i + 1) (x - B.ranklm v offs 63)

/-- `select(x)`, `x ≥ 1` (Select.hpp:199-253). -/
def Select.select (S : Select) (B : Basic) (x : Nat) : Res Nat := do
  if x > S.max then return S.bv.n
  let i := x / S.supSize
  let j := x / S.blockSize
  let pos ← (if i > 0 then rd S.sups (i - 1) else pure 0 : Res Nat)
  let x := x - i * S.supSize
  if x = 0 then return pos
  let k := j - i * (S.supSize / S.blockSize)
  let p ← (if k > 0 then rd S.blocks (j - 1) else pure 0 : Res Nat)
  let pos := pos + p
  let x := x - k * S.blockSize
  if x = 0 then return pos
  selSearch B S.bv.data (if i > 0 ∨ k > 0 then pos + 1 else pos) x

end RS
end Tdc
