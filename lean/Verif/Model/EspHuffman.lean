import Verif.Model.EspWT
import Verif.Model.Huffman

/-!
# compressors/esp/HuffmanCoder.hpp, and `DHuffman` of compressors/esp/DRCoder.hpp

The coder of right-hand sides with a Huffman code. The algorithms of this file are those of coders/HuffmanCoder.hpp with `size_t` in place of `uint8_t`; the
shared parts are in Model/Huffman.lean. `gen_numl` and `gen_codewords` take `longest` as `uint8_t`, here it is a natural number (the two differ for codewords
of 256 and more bits only).
-/

namespace Tdc
namespace Esp

open Huff

/-- esp/HuffmanCoder.hpp:23-39 `gen_effective_alphabet` -/
def dhAlphabet (counts : List Nat) : List Nat := (List.range counts.length).filter fun i => decide (look counts i ≠ 0)

/-- esp/HuffmanCoder.hpp:161-186 `gen_ordered_map_to_effective`: `size_t(-1)` where nothing is written -/
def dhMap : List Nat → Nat → List Nat → Res (List Nat)
  | [], _, m => .ok m
  | c :: cs, i, m => (Huff.vset m c i).bind fun m => dhMap cs (i + 1) m

/-- esp/HuffmanCoder.hpp:201-245 `gen_huffmantable` -/
def dhTable (std : StdLib) (counts : List Nat) : Res Table :=
  let alpha := dhAlphabet counts
  (genDepths std (alpha.map (look counts))).bind fun lens => canonTable std (2 ^ 64) alpha lens

/-- esp/HuffmanCoder.hpp:297-308 `huffmantable_encode` -/
def dhTableEncode (real : Nat) (t : Table) : List Bool :=
  writeCInt real 7 ++ writeCInt t.longest 7 ++ t.numl.flatMap (fun x => writeCInt x 7) ++ writeCInt t.chars.length 7 ++
    t.chars.flatMap fun c => writeInt c (bitsFor (real - 1))

/-- esp/HuffmanCoder.hpp:277-293 `huffman_encode` -/
def dhEncodeOne (t : Table) (m : List Nat) (v : Nat) : Res (List Bool) :=
  (vget m v).bind fun e => (vget t.codewords e).bind fun w => (vget t.lens e).bind fun l => .ok (writeInt w l)

/-- esp/HuffmanCoder.hpp:437-443 in a loop, esp/DRCoder.hpp:26-28 -/
def dhEncodeAll (t : Table) (m : List Nat) : List Nat → Res (List Bool)
  | [] => .ok []
  | v :: l => (dhEncodeOne t m v).bind fun a => (dhEncodeAll t m l).bind fun b => .ok (a ++ b)

/-- esp/HuffmanCoder.hpp:247-254: `max`, the size of the array of counts minus one -/
def dhMax : List Nat → Nat := fun l => l.foldl max 0

/-- esp/HuffmanCoder.hpp:247-272, 411-443, esp/DRCoder.hpp:22-29: the constructors of `ExtendedHuffmantable` and `HuffmanEncoder`, then all values -/
def dhEnc (std : StdLib) (l : List Nat) : Res (List Bool) :=
  let real := dhMax l + 1
  (wtHist l (List.replicate real 0)).bind fun counts =>
    if (dhAlphabet counts).length ≤ 1 then .ok (false :: l.flatMap fun v => writeInt v 64)
    else (dhTable std counts).bind fun t => (dhMap t.chars 0 (List.replicate real (2 ^ 64 - 1))).bind fun m =>
      (dhEncodeAll t m l).bind fun b => .ok (true :: dhTableEncode real t ++ b)

/-- esp/HuffmanCoder.hpp:357-384 `gen_prefix_sum_lengths`: the array starts with zeros -/
def dhPrefixSums (lens : List Nat) (longest : Nat) : Res (List Nat) :=
  match lens with
  | [] => .error .ub
  | len :: lens => if len = 0 then .error .ub else (Huff.vset (List.replicate longest 0) (len - 1) 0).bind fun ps => prefixLoop lens len 1 ps

/-- esp/HuffmanCoder.hpp:313-340 `huffmantable_decode`: `numl`, `ordered_map_from_effective` -/
def dhTableDecode (bs : List Bool) : Res ((List Nat × List Nat) × List Bool) :=
  (rdCInt 7 bs).bind fun real => (rdCInt 7 real.2).bind fun longest => (rdMany (rdCInt 7) longest.1 longest.2).bind fun numl =>
    (rdCInt 7 numl.2).bind fun n => (rdMany (fun bs => .ok (rdInt 64 (bitsFor (real.1 - 1)) bs)) n.1 n.2).bind fun chars =>
      .ok ((numl.1, chars.1), chars.2)

/-- esp/HuffmanCoder.hpp:447-471: the constructor of `HuffmanDecoder`; `none` is an empty `m_ordered_map_from_effective`. Of `gen_ordered_codelengths`
(342-355) the number of entries must be right: more entries write out of bounds; fewer, which the code accepts with entries 0, are not modelled. -/
def dhDecoder (bs : List Bool) : Res (DecState × List Bool) :=
  let (b, bs) := rdBit bs
  if b = false then .ok (none, bs)
  else (dhTableDecode bs).bind fun r =>
    if (orderedLens 0 r.1.1).length ≠ r.1.2.length then .error .ub
    else (dhPrefixSums (orderedLens 0 r.1.1) r.1.1.length).bind fun ps => .ok (some (r.1.2, ps, firstCodes r.1.1), r.2)

/-- esp/HuffmanCoder.hpp:473-482 `decode`; `huffman_decode` (386-406) is that of coders/HuffmanCoder.hpp -/
def dhDecodeOne : DecState → List Bool → Res (Nat × List Bool)
  | none, bs => .ok (rdInt 64 64 bs)
  | some (chars, ps, first), bs => decodeLit chars ps first bs

/-- esp/DRCoder.hpp:31-37 -/
def dhDec (n : Nat) (bs : List Bool) : Res (List Nat × List Bool) :=
  (dhDecoder bs).bind fun d => rdMany (dhDecodeOne d.1) n d.2

/-- esp/DRCoder.hpp:12-38 `DHuffman` -/
def DHuffman (std : StdLib) : DCoder where
  enc _ _ l := dhEnc std l
  dec _ _ n bs := dhDec n bs

end Esp
end Tdc
