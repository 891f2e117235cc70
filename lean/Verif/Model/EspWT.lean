import Verif.Model.EspSorted

/-!
# compressors/esp/wt_pc.hpp, the wavelet trees of compressors/esp/MonotoneSubsequences.hpp, `DWaveletTree` of compressors/esp/DRCoder.hpp

`size_t` counters are natural numbers; words are natural numbers below `2^64`. An `IntVector<uint_t<1>>` is read bit by bit from its words, the lowest
bit first (ds/IntVector.hpp:130-134, 545).
-/

namespace Tdc
namespace Esp

/-! ## Construction of the bit vectors -/

/-- esp/wt_pc.hpp:38-42, 47-51: a word is filled from the left -/
def wtPack (shift : Nat) (l : List Nat) : Nat := l.foldl (fun w x => (w <<< 1) % 2 ^ 64 ||| ((x >>> shift) &&& 1)) 0

/-- esp/wt_pc.hpp:36-55: the words of the first level -/
def wtLevel0 (shift : Nat) (l : List Nat) : List Nat :=
  if h : 64 ≤ l.length then wtPack shift (l.take 64) :: wtLevel0 shift (l.drop 64)
  else if l.length ≠ 0 then [(wtPack shift l <<< (64 - l.length)) % 2 ^ 64] else []
termination_by l.length
decreasing_by simp; omega

/-- esp/wt_pc.hpp:39, 48: the histogram -/
def wtHist : List Nat → List Nat → Res (List Nat)
  | [], hist => .ok hist
  | x :: l, hist =>
    match hist[x]? with
    | none => .error .ub
    | some c => wtHist l (hist.set x (c + 1))

/-- esp/wt_pc.hpp:65-67: `k` entries, from entry `i` on -/
def wtHalve : (k i : Nat) → List Nat → Res (List Nat)
  | 0, _, hist => .ok hist
  | k + 1, i, hist =>
    match hist[i <<< 1]?, hist[(i <<< 1) + 1]? with
    | some a, some b => if i < hist.length then wtHalve k (i + 1) (hist.set i (a + b)) else .error .ub
    | _, _ => .error .ub

/-- esp/wt_pc.hpp:70-72: `k` entries, from entry `i` on -/
def wtBorders (hist : List Nat) : (k i : Nat) → List Nat → Res (List Nat)
  | 0, _, borders => .ok borders
  | k + 1, i, borders =>
    match borders[i - 1]?, hist[i - 1]? with
    | some a, some b => if i < borders.length then wtBorders hist k (i + 1) (borders.set i (a + b)) else .error .ub
    | _, _ => .error .ub

/-- esp/wt_pc.hpp:74-78: the bits of a level are put into its words -/
def wtScatter (prefixShift bitShift : Nat) : List Nat → (borders words : List Nat) → Res (List Nat × List Nat)
  | [], borders, words => .ok (borders, words)
  | x :: l, borders, words =>
    match borders[x >>> prefixShift]? with
    | none => .error .ub
    | some pos =>
      match words[pos >>> 6]? with
      | none => .error .ub
      | some word =>
        wtScatter prefixShift bitShift l (borders.set (x >>> prefixShift) (pos + 1))
          (words.set (pos >>> 6) (word ||| ((((x >>> bitShift) &&& 1) <<< (63 - (pos &&& 63))) % 2 ^ 64)))

/-- esp/wt_pc.hpp:57-79: from level `level` down to level 1; the words of the levels, in the order of the levels -/
def wtLevels (text : List Nat) (levels : Nat) : (level cur : Nat) → (hist borders : List Nat) → (acc : List (List Nat)) → Res (List (List Nat))
  | 0, _, _, _, acc => .ok acc
  | level + 1, cur, hist, borders, acc =>
    let prefixShift := levels - (level + 1)
    let bitShift := prefixShift - 1
    let words := List.replicate ((text.length + 63) >>> 6) 0
    let cur := cur >>> 1
    (wtHalve cur 0 hist).bind fun hist =>
      if 0 < borders.length then
        (wtBorders hist (cur - 1) 1 (borders.set 0 0)).bind fun borders =>
          (wtScatter prefixShift bitShift text borders words).bind fun r => wtLevels text levels level cur hist r.1 (r.2 :: acc)
      else .error .ub

/-- esp/wt_pc.hpp:25-80: `wt_pc` for `levels > 0`. `1 << levels` is computed as an `int`. -/
def wtPc (text : List Nat) (levels : Nat) : Res (List (List Nat)) :=
  if 31 ≤ levels then .error .ub
  else
    (wtHist text (List.replicate (1 <<< levels) 0)).bind fun hist =>
      (wtLevels text levels (levels - 1) (1 <<< levels) hist (List.replicate (1 <<< levels) 0) []).bind fun r =>
        .ok (wtLevel0 (levels - 1) text :: r)

/-- One line of esp/MonotoneSubsequences.hpp:487-492 (the results fit into 64 bits) -/
def revStep (lo hi s x : Nat) : Nat := ((x &&& lo) <<< s) ||| ((x &&& hi) >>> s)

/-- esp/MonotoneSubsequences.hpp:486-494 `rev` -/
def rev64 (x : Nat) : Nat :=
  let x := revStep 0x5555555555555555 0xAAAAAAAAAAAAAAAA 1 x
  let x := revStep 0x3333333333333333 0xCCCCCCCCCCCCCCCC 2 x
  let x := revStep 0x0F0F0F0F0F0F0F0F 0xF0F0F0F0F0F0F0F0 4 x
  let x := revStep 0x00FF00FF00FF00FF 0xFF00FF00FF00FF00 8 x
  let x := revStep 0x0000FFFF0000FFFF 0xFFFF0000FFFF0000 16 x
  revStep 0x00000000FFFFFFFF 0xFFFFFFFF00000000 32 x

/-- esp/MonotoneSubsequences.hpp:500-504 -/
def wtDepth (mx : Nat) : Nat := if mx = 0 then 0 else wtDepth (mx >>> 1) + 1
decreasing_by simp [Nat.shiftRight_eq_div_pow]; omega

/-- The first `n` entries of an `IntVector<uint_t<1>>` -/
def wtBits (n : Nat) (words : List Nat) : List Bool := (List.range n).map fun i => (words[i / 64]?.getD 0).testBit (i % 64)

/-- esp/MonotoneSubsequences.hpp:484-536 `make_wt` -/
def makeWt (v : List Nat) (mx : Nat) : Res (List (List Bool)) :=
  let depth := wtDepth mx
  if depth = 0 then .ok [] else (wtPc v depth).bind fun wt => .ok (wt.map fun words => wtBits v.length (words.map rev64))

/-! ## Reading -/

/-- esp/MonotoneSubsequences.hpp:673-684: the sizes of the nodes of the next level (zeros and ones in each node) -/
def wtNextSizes (layer : List Bool) : (start : Nat) → List Nat → Res (List Nat)
  | _, [] => .ok []
  | start, w :: ws =>
    if start + w ≤ layer.length then
      let s := (layer.drop start).take w
      (wtNextSizes layer (start + w) ws).bind fun r => .ok (s.count false :: s.count true :: r)
    else .error .ub

/-- esp/MonotoneSubsequences.hpp:660-688: from the sizes of a level on; the last bit vector is not looked at -/
def wtSizes : List (List Bool) → List Nat → Res (List (List Nat))
  | [], cur => .ok [cur]
  | [_], cur => .ok [cur]
  | layer :: bvs, cur => (wtNextSizes layer 0 cur).bind fun next => (wtSizes bvs next).bind fun r => .ok (cur :: r)

/-- esp/MonotoneSubsequences.hpp:538-546 `WTIter`; the children of iterator `i` are the iterators `2 i + 1` and `2 i + 2`, except on the last level -/
structure WTIter where
  start : Nat
  stop : Nat
  depth : Nat
  min : Nat
  max : Nat
deriving DecidableEq, Repr

/-- esp/MonotoneSubsequences.hpp:610-640: iterator `i`, on level `depth` of `levels` -/
def wtNode (levels depth i off size : Nat) (its : List WTIter) : Res (List WTIter) :=
  match its[i]? with
  | none => .error .ub
  | some it =>
    let its := its.set i ⟨off, off + size, depth, it.min, it.max⟩
    if depth < levels - 1 then
      match its[i * 2 + 1]?, its[i * 2 + 2]? with
      | some c0, some c1 =>
        let mid := (it.max - it.min) / 2 + it.min
        .ok ((its.set (i * 2 + 1) { c0 with min := it.min, max := mid }).set (i * 2 + 2) { c1 with min := mid, max := it.max })
      | _, _ => .error .ub
    else .ok its

/-- esp/MonotoneSubsequences.hpp:606-645: the nodes of one level, from iterator `i` on -/
def wtLayer (levels depth : Nat) : (i off : Nat) → List Nat → List WTIter → Res (Nat × List WTIter)
  | i, _, [], its => .ok (i, its)
  | i, off, s :: layer, its => (wtNode levels depth i off s its).bind fun its => wtLayer levels depth (i + 1) (off + s) layer its

/-- esp/MonotoneSubsequences.hpp:602-646 -/
def wtIters (levels : Nat) : (depth i : Nat) → List (List Nat) → List WTIter → Res (List WTIter)
  | _, _, [], its => .ok its
  | depth, i, layer :: layers, its => (wtLayer levels depth i 0 layer its).bind fun r => wtIters levels (depth + 1) r.1 layers r.2

/-- esp/MonotoneSubsequences.hpp:552-578 `WTIter::next`; at most `fuel` calls -/
def wtNext (bvs : List (List Bool)) : (fuel i : Nat) → List WTIter → Res (Nat × List WTIter)
  | 0, _, _ => .error .loop
  | fuel + 1, i, its =>
    match its[i]? with
    | none => .error .ub
    | some it =>
      match bvs[it.depth]? with
      | none => .error .ub
      | some bv =>
        match bv[it.start]? with
        | none => .error .ub
        | some bit =>
          let its := its.set i { it with start := it.start + 1 }
          if it.depth < bvs.length - 1 then wtNext bvs fuel (if bit then i * 2 + 2 else i * 2 + 1) its
          else .ok (if bit then it.max - 1 else it.min, its)

/-- esp/MonotoneSubsequences.hpp:649-652; at most `fuel` rounds -/
def wtRead (bvs : List (List Bool)) : Nat → List WTIter → Res (List Nat)
  | 0, _ => .error .loop
  | fuel + 1, its =>
    match its[0]? with
    | none => .error .ub
    | some it =>
      if it.start ≠ it.stop then (wtNext bvs bvs.length 0 its).bind fun r => (wtRead bvs fuel r.2).bind fun l => .ok (r.1 :: l)
      else .ok []

/-- esp/MonotoneSubsequences.hpp:581-655 `extract_from_wt` -/
def extractWt (sizes : List (List Nat)) (bvs : List (List Bool)) (size : Nat) : Res (List Nat) :=
  if bvs.length = 0 then .ok (List.replicate size 0)
  else
    let mx := (sizes.getLast?.getD []).length * 2
    let its := (List.replicate (2 ^ bvs.length - 1) (⟨0, 0, 0, 0, 0⟩ : WTIter)).set 0 ⟨0, 0, 0, 0, mx⟩
    (wtIters bvs.length 0 0 sizes its).bind fun its => wtRead bvs (size + 1) its

/-- esp/MonotoneSubsequences.hpp:657-695 `recover_Dxx` -/
def recoverDxx (bvs : List (List Bool)) (size : Nat) : Res (List Nat) :=
  (wtSizes bvs [size]).bind fun sizes => extractWt sizes bvs size

/-! ## The coder -/

/-- esp/DRCoder.hpp:131-137: `n` bits -/
def rdBitList : Nat → List Bool → List Bool × List Bool
  | 0, bs => ([], bs)
  | n + 1, bs =>
    let (b, bs) := rdBit bs
    let (l, bs) := rdBitList n bs
    (b :: l, bs)

/-- esp/DRCoder.hpp:131-137: `depth` bit vectors of `n` bits -/
def rdWt (n : Nat) : Nat → List Bool → List (List Bool) × List Bool
  | 0, bs => ([], bs)
  | d + 1, bs =>
    let (bv, bs) := rdBitList n bs
    let (r, bs) := rdWt n d bs
    (bv :: r, bs)

/-- esp/DRCoder.hpp:106-152 `DWaveletTree` (vectors of `depth` entries are not allocated before they are filled) -/
def DWaveletTree : DCoder where
  enc _ mx l := (makeWt l mx).bind fun bvs => .ok (writeCInt bvs.length 7 ++ bvs.flatten)
  dec _ _ n bs :=
    (rdCInt 7 bs).bind fun r =>
      let (bvs, bs) := rdWt n r.1 r.2
      (recoverDxx bvs n).bind fun l => .ok (l, bs)

end Esp
end Tdc
