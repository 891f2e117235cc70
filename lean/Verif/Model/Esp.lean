import Verif.Model.BitIO

/-!
# compressors/EspCompressor.hpp and compressors/esp/ (grammar construction, plain coder)

`size_t` values are natural numbers (their sizes are bounded in the statements), the strings of the rounds (`IntVector<dynamic_t>`,
`BitPackingVectorSlice`) are lists of numbers; what a `push_back` truncates is modelled. `DCHECK`s are not evaluated (release build).
The debug and statistics output is left out.
-/

namespace Tdc
namespace Esp

/-- esp/TypedBlock.hpp:7-10 -/
structure Blk where
  len : Nat
  type : Nat
deriving DecidableEq, Repr

/-! ## Meta blocks -/

/-- esp/esp_math.hpp:8-14 `iter_log` -/
def iterLog (n : Nat) : Nat :=
  if n < 7 then 0 else if n < 9 then 1 else if n < 17 then 2 else if n < 257 then 3 else 4

/-- `__builtin_ctz` of a non-zero number: index of the lowest set bit (`fuel` ≥ its position) -/
def ctz : Nat → Nat → Nat
  | 0, _ => 0
  | fuel + 1, x => if x % 2 = 1 then 0 else ctz fuel (x / 2) + 1

/-- esp/esp_math.hpp:16-36 `label`. `__builtin_ctz` takes an `unsigned int`, so only the low 32 bits of the difference are seen; it is
undefined for 0. -/
def label (left right : Nat) : Res Nat :=
  let diff := (left ^^^ right) % 2 ^ 32
  if diff = 0 then .error .ub
  else
    let l := ctz 32 diff
    .ok (2 * l + (right >>> l) % 2)

/-- esp/meta_blocks.hpp:95-100: one pass `buf[i-1] = label(buf[i-1], buf[i])` from left to right, then `pop_back`. (`buf[i]` is still
the old value when it becomes the left one.) -/
def labelPass : List Nat → Res (List Nat)
  | [] => .error .ub
  | [_] => .ok []
  | x :: y :: l => (label x y).bind fun a => (labelPass (y :: l)).bind fun r => .ok (a :: r)

/-- esp/meta_blocks.hpp:94-103: `k` passes -/
def labelPasses : Nat → List Nat → Res (List Nat)
  | 0, buf => .ok buf
  | k + 1, buf => (labelPass buf).bind fun buf => labelPasses k buf

/-- esp/meta_blocks.hpp:118: `for (auto n : neighbors) { if (n == e) { e++; } }` -/
def bump (e : Nat) (nb : List Nat) : Nat := nb.foldl (fun e n => if n = e then e + 1 else e) e

/-- esp/meta_blocks.hpp:117-119: the loop runs twice, from 0 -/
def pick (nb : List Nat) : Nat := bump (bump 0 nb) nb

/-- esp/utils.hpp:86-108 `do_for_neighbors` with the function of esp/meta_blocks.hpp:114-121: the left neighbour is the value already
written, `prev` (`none` at the first position). -/
def reducePass (r : Nat) (prev : Option Nat) : List Nat → List Nat
  | [] => []
  | x :: l =>
    let e := if x = r then pick (prev.toList ++ l.head?.toList) else x
    e :: reducePass r (some e) l

/-- esp/meta_blocks.hpp:113-124: for 3, 4, 5 -/
def reduce (buf : List Nat) : List Nat := reducePass 5 none (reducePass 4 none (reducePass 3 none buf))

/-- esp/meta_blocks.hpp:136-146: no neighbour is larger -/
def highs (prev : Option Nat) : List Nat → List Bool
  | [] => []
  | x :: l => (prev.toList ++ l.head?.toList).all (fun e => decide (¬ x < e)) :: highs (some x) l

/-- esp/meta_blocks.hpp:150-166: no neighbour is smaller, and no neighbouring mark so far. `prevLm` is the mark to the left (as updated). -/
def lows (prev : Option Nat) (prevLm : Option Bool) : List Nat → List Bool → List Bool
  | x :: l, m :: ms =>
    let low := (prev.toList ++ l.head?.toList).all (fun e => decide (¬ e < x))
    let m' := m || (low && prevLm.all (! ·) && ms.head?.all (! ·))
    m' :: lows (some x) (some m') l ms
  | _, _ => []

/-- esp/meta_blocks.hpp:134-166 -/
def landmarks (buf : List Nat) : List Bool := lows none none buf (highs none buf)

/-- esp/landmarks.hpp:46-72: the loop of `landmark_spanner` from position `i` on (`lm` = the marks from there), with `tie` = true;
`b0` is `blocks[0]` if `bi` is 1. Result: the spans pushed, and the last `blocks[1]` if there is one. -/
def spanLoop (size : Nat) : Nat → List Bool → Option (Nat × Nat) → List (Nat × Nat)
  | _, [], none => []
  | _, [], some b => [b]                                     -- 73-76
  | i, false :: lm, b0 => spanLoop size (i + 1) lm b0
  | i, true :: lm, b0 =>
    let left := if i = 0 then i else i - 1
    let right := if i = size - 1 then i else i + 1
    match b0 with
    | none => spanLoop size (i + 1) lm (some (left, right))
    | some (l0, r0) =>
      let r0 := if left = r0 then r0 - 1 else r0
      (l0, r0) :: spanLoop size (i + 1) lm (some (left, right))

/-- esp/RoundContext.hpp:50-53 `push_back`: both numbers are stored as `uint8_t` -/
def blk (l t : Nat) : Blk := ⟨l % 256, t % 256⟩

/-- esp/meta_blocks.hpp:34-63 `eager_mb13` on a string of the given length -/
def mb13 (t : Nat) : Nat → List Blk
  | 0 => []
  | 1 => [blk 1 t]
  | 2 => [blk 2 t]
  | 3 => [blk 3 t]
  | 4 => [blk 2 t, blk 2 t]
  | n + 5 => blk 3 t :: mb13 t (n + 2)

/-- esp/meta_blocks.hpp:170-182: the blocks of the spans -/
def spanBlocks (lm : List Bool) : List Blk :=
  (spanLoop lm.length 0 lm none).map fun s => blk (s.2 - s.1 + 1) 2

/-- esp/meta_blocks.hpp:65-187 `eager_mb2` -/
def mb2 (alphabet : Nat) (src : List Nat) : Res (List Blk) :=
  let k := min (iterLog alphabet) src.length
  let pre := mb13 3 k
  if k = src.length then .ok pre
  else (labelPasses k src).bind fun buf => .ok (pre ++ spanBlocks (landmarks (reduce buf)))

/-- esp/RoundContextImpl.hpp:6-14 `split_where`, on what follows position `i`; returns `j - i` -/
def splitWhere (f : Nat → Nat → Bool) (mx : Bool) : List Nat → Nat
  | [] => 0
  | [_] => 1
  | x :: y :: l => if !f x y then (if mx then 1 else 0) else splitWhere f mx (y :: l) + 1

/-- esp/RoundContextImpl.hpp:16-54 `split`, on what follows position `i`, with `behavior_metablocks_maximimze_repeating` = true
(esp/EspContext.hpp:32). `fuel` bounds the rounds of the loop. -/
def split (alphabet : Nat) : Nat → List Nat → Res (List Blk)
  | 0, _ => .error .loop
  | fuel + 1, src =>
    if src.length = 0 then .ok []
    else
      let j := splitWhere (fun a b => decide (a ≠ b)) false src
      (if j ≠ 0 then mb2 alphabet (src.take j) else .ok []).bind fun m2 =>
        let src := src.drop j
        let j := splitWhere (fun a b => decide (a = b)) true src
        let m1 := if j ≠ 0 then mb13 1 j else []
        (split alphabet fuel (src.drop j)).bind fun r => .ok (m2 ++ m1 ++ r)

/-! ## Adjusting the blocks -/

/-- esp/BlockAdjust.hpp:10-12 `needs_merge` -/
def needsMerge (a b : Blk) : Bool := decide (a.len = 1) || decide (b.len = 1)

/-- esp/BlockAdjust.hpp:14-37 `merge`: the two blocks and the result -/
def merge (a b : Blk) (t : Nat) : Blk × Blk × Nat :=
  if a.len + b.len = 2 then (⟨2, t⟩, ⟨2, t⟩, 1)
  else if a.len + b.len = 3 then (⟨3, t⟩, ⟨3, t⟩, 1)
  else if a.len + b.len = 4 then (⟨2, t⟩, ⟨2, t⟩, 2)
  else (a, b, 0)

/-- esp/BlockAdjust.hpp:100-119: the part of the function that looks at the first two of at least two blocks; `none` = falls through -/
def adjFront (a b : Blk) (r : List Blk) : Option (List Blk) :=
  let go (t : Nat) : List Blk :=
    match merge a b t with
    | (a, b, n) => if n = 1 then b :: r else a :: b :: r     -- `pop_front`
  if needsMerge a b && decide (a.type = 2) && decide (b.type = 2) then some (go 2)
  else if needsMerge a b && decide (a.type = 3) then some (go 3)
  else if needsMerge a b && (decide (a.type = 1) || decide (b.type = 1)) then some (go 1)
  else none

/-- esp/BlockAdjust.hpp:75-132: the function given to `adjust2`; the queue and whether to call it again -/
def adjStep (v : List Blk) : Bool × List Blk :=
  if !v.any (fun e => decide (e.len = 1)) then (false, v)
  else
    let front (v : List Blk) : Bool × List Blk :=
      match v with
      | a :: b :: r =>
        match adjFront a b r with
        | some v => (true, v)
        | none => if 1 < a.len then (false, v) else (true, v)
      | [a] => if 1 < a.len then (false, v) else (true, v)
      | [] => (true, v)
    match v with
    | [x, a, b] =>
      if needsMerge a b && decide (a.type = 2) && decide (b.type = 2) then
        match merge a b 2 with
        | (a, b, n) => (true, if n = 1 then [x, a] else [x, a, b])   -- `pop_back`
      else front v
    | _ => front v

/-- esp/BlockAdjust.hpp:47-52 `fill`: the queue holds three blocks -/
def fill (q rd : List Blk) : List Blk × List Blk := (q ++ rd.take (3 - q.length), rd.drop (3 - q.length))

/-- esp/BlockAdjust.hpp:59-63: `do { fill(); } while (f(queue))` -/
def adjInner : Nat → List Blk → List Blk → Res (List Blk × List Blk)
  | 0, _, _ => .error .loop
  | fuel + 1, q, rd =>
    let (q, rd) := fill q rd
    match adjStep q with
    | (true, q) => adjInner fuel q rd
    | (false, q) => .ok (q, rd)

/-- esp/BlockAdjust.hpp:55-70: what is written -/
def adjLoop : Nat → List Blk → List Blk → Res (List Blk)
  | 0, _, _ => .error .loop
  | fuel + 1, q, rd =>
    if q.length = 0 then .ok []
    else (adjInner (q.length + rd.length + 1) q rd).bind fun s =>
      match s.1 with
      | [] => .error .ub                                     -- `pop_front` of an empty queue
      | e :: q => (adjLoop fuel q s.2).bind fun r => .ok (e :: r)

/-- esp/BlockAdjust.hpp:39-134 `adjust_blocks`. The writing position never overtakes the reading position; the blocks behind it are
removed at the end. -/
def adjust (blocks : List Blk) : Res (List Blk) :=
  if blocks.length < 2 then .ok blocks
  else
    let (q, rd) := fill [] blocks
    adjLoop (blocks.length + 1) q rd

/-! ## Rules of a round -/

/-- esp/GrammarRules.hpp:17-31: the map (an `IPDMap`) and `counter` -/
structure Rules where
  map : List ((Nat × Nat) × Nat)
  counter : Nat
deriving DecidableEq, Repr

/-- esp/StdUnorderedMapIPD.hpp:22-27 `access` with the updater of GrammarRules.hpp:45-49: a new key has the value 0, and gets the counter. -/
def Rules.access (g : Rules) (k : Nat × Nat) : Nat × Rules :=
  match g.map.lookup k with
  | some v => (v, g)
  | none => (g.counter, ⟨g.map ++ [(k, g.counter)], g.counter + 1⟩)

/-- esp/GrammarRules.hpp:40-80 `add` -/
def Rules.add (g : Rules) : List Nat → Res (Nat × Rules)
  | [a, b] => let (r, g) := g.access (a, b); .ok (r - 1, g)
  | a :: b :: c :: _ =>
    let (r, g) := g.access (a, b)
    let (s, g) := g.access (r - 1, c)
    .ok (s - 1, g)
  | _ => .error .ub

/-- esp/EspContextImpl.hpp:84-99: the names of the blocks, as stored in the new layer (`w` bits) -/
def nameBlocks (ic w : Nat) : List Blk → List Nat → Rules → Res (List Nat × Rules)
  | [], _, g => .ok ([], g)
  | e :: v, s, g =>
    if s.length < e.len then .error .ub
    else (g.add (s.take e.len)).bind fun x =>
      (nameBlocks ic w v (s.drop e.len) x.2).bind fun y => .ok ((x.1 - (ic - 1)) % 2 ^ w :: y.1, y.2)

/-- esp/EspContextImpl.hpp:119-126: store the rules. `m` is the map in the order in which it is traversed. -/
def storeRules (ic slpCounter prev : Nat) : List ((Nat × Nat) × Nat) → List (Nat × Nat) → Res (List (Nat × Nat))
  | [], rv => .ok rv
  | (k, v) :: m, rv =>
    let i := slpCounter + (v - ic) - 256
    if i < rv.length then storeRules ic slpCounter prev m (rv.set i (k.1 + prev, k.2 + prev)) else .error .ub

/-- esp/SLP.hpp:12-15 -/
structure SLP where
  rules : List (Nat × Nat)
  root : Nat
  empty : Bool
deriving DecidableEq, Repr

/-- esp/EspContextImpl.hpp:43-162: the rounds. `iter` is the order in which the map of rules is traversed (unspecified for
`std::unordered_map`). `fuel` bounds the number of rounds. -/
def roundLoop (iter : List ((Nat × Nat) × Nat) → List ((Nat × Nat) × Nat)) :
    Nat → (alphabet : Nat) → (str : List Nat) → (rules : List (Nat × Nat)) → (slpCounter prev : Nat) → Res SLP
  | 0, _, _, _, _, _ => .error .loop
  | fuel + 1, alphabet, str, rules, slpCounter, prev =>
    match str with
    | [] => .ok ⟨rules, 0, true⟩
    | [x] => .ok ⟨rules, x + prev, false⟩
    | _ =>
      let w := bitsFor (str.length - 1)
      (split alphabet (str.length + 1) str).bind fun bs => (adjust bs).bind fun v =>
        let ic := alphabet + 1
        (nameBlocks ic w v str ⟨[], ic⟩).bind fun x =>
          let count := x.2.counter - ic
          (storeRules ic slpCounter prev (iter x.2.map) (rules ++ List.replicate count (0, 0))).bind fun rules =>
            roundLoop iter fuel count x.1 rules (slpCounter + count) slpCounter

/-- esp/EspContextImpl.hpp:14-165 `generate_grammar` -/
def generate (iter : List ((Nat × Nat) × Nat) → List ((Nat × Nat) × Nat)) (text : List UInt8) : Res SLP :=
  roundLoop iter (text.length + 1) 256 (text.map UInt8.toNat) [] 256 0

/-! ## The grammar as text -/

/-- esp/SLP.hpp:25-31 `derive_text_rec`. `fuel` bounds the depth of the recursion. -/
def deriveRec (rules : List (Nat × Nat)) : Nat → Nat → Res (List UInt8)
  | 0, _ => .error .loop
  | fuel + 1, r =>
    if r < 256 then .ok [UInt8.ofNat r]
    else
      match rules[r - 256]? with
      | none => .error .ub
      | some (a, b) => (deriveRec rules fuel a).bind fun u => (deriveRec rules fuel b).bind fun v => .ok (u ++ v)

/-- esp/SLP.hpp:33-38 `derive_text` -/
def SLP.derive (s : SLP) : Res (List UInt8) :=
  if s.empty then .ok [] else deriveRec s.rules (s.rules.length + 1) s.root

/-! ## PlainSLPCoder -/

/-- esp/PlainSLPCoder.hpp:44-51 -/
def plainRules (w : Nat) : List (Nat × Nat) → List Bool
  | [] => []
  | (a, b) :: l => writeInt a w ++ writeInt b w ++ plainRules w l

/-- esp/PlainSLPCoder.hpp:18-52 `encode`: the bits written -/
def plainEnc (s : SLP) : List Bool :=
  let w := if s.empty then 0 else bitsFor (s.rules.length + 256 - 1)
  writeInt w 6 ++ writeInt s.root w ++ plainRules w s.rules

/-- esp/PlainSLPCoder.hpp:69-77: `while (!bin.eof())`. `fuel` ≥ the number of bits; a round without progress repeats for ever. -/
def plainLoop (w : Nat) : Nat → List Bool → Res (List (Nat × Nat))
  | 0, bs => if bs.length = 0 then .ok [] else .error .loop
  | fuel + 1, bs =>
    if bs.length = 0 then .ok []
    else
      let (a, bs) := rdInt 64 w bs
      let (b, bs) := rdInt 64 w bs
      (plainLoop w fuel bs).bind fun r => .ok ((a, b) :: r)

/-- esp/PlainSLPCoder.hpp:54-80 `decode` (the reservation of memory in line 67 is left out) -/
def plainDec (bs : List Bool) : Res SLP :=
  let (w, bs) := rdInt 64 6 bs
  let (root, bs) := rdInt 64 w bs
  (plainLoop w bs.length bs).bind fun rules => .ok ⟨rules, root, w == 0⟩

/-! ## The compressor -/

/-- EspCompressor.hpp:32-70 `compress`, with `PlainSLPCoder` -/
def compress (iter : List ((Nat × Nat) × Nat) → List ((Nat × Nat) × Nat)) (text : List UInt8) : Res (List UInt8) :=
  (generate iter text).bind fun s => .ok (BitO.toBytes (plainEnc s))

/-- EspCompressor.hpp:72-90 `decompress`, with `PlainSLPCoder` -/
def decompress (bytes : List UInt8) : Res (List UInt8) := (plainDec (bitsOf bytes)).bind SLP.derive

end Esp
end Tdc
