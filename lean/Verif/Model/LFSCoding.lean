import Verif.Model.Trie
import Verif.Model.Huffman

/-!
# What the LFS compressors have in common: two coders on one bit stream, the list of rule lengths

`lfs/EncodeStrategy.hpp`, `lfs/LFS2Compressor.hpp` and `lfs/LFS2BSTCompressor.hpp` write lengths with a *length coder* (a universal coder) and
everything else with a *literal coder* (bit, ASCII or Huffman).  The literal coder is constructed first, so its header comes first; universal
coders have none.
-/

namespace Tdc
namespace Lfs

/-- one `encode` call: of the length coder or of the literal coder -/
inductive Tok where
  | len (r : Rng) (v : Nat)
  | lit (r : Rng) (v : Nat)
  deriving DecidableEq, Repr

/-- what the calls write if `c1` is the length coder and `c2` the literal coder, both without header -/
def enc (c1 c2 : UCoder) : Tok → List Bool
  | .len r v => c1.enc r v
  | .lit r v => c2.enc r v

/-- the literal coders of the registry (etc/registry_config.py:214-218): a coder without header, or Huffman -/
inductive LitCoder where
  | plain (c : UCoder)
  | huffman

/-- the calls with the Huffman coder for the announced literals `ls` -/
def encHuff (c1 : UCoder) (ls : List UInt8) (m : Huff.Mode) : List Tok → Res (List Bool)
  | [] => .ok []
  | t :: ts =>
    (match t with
      | .len r v => .ok (c1.enc r v)
      | .lit r v => Huff.encode ls m r v : Res (List Bool)).bind fun bs => (encHuff c1 ls m ts).bind fun r => .ok (bs ++ r)

/-- the file written by the two encoders for the calls `ts`; `ls` are the literals announced to the literal coder
(lfs/EncodeStrategy.hpp:64-74, lfs/LFS2Compressor.hpp:399-409) -/
def write (std : StdLib) (lc : LitCoder) (c1 : UCoder) (ls : List UInt8) (ts : List Tok) : Res (List UInt8) :=
  match lc with
  | .plain c2 => .ok (BitO.toBytes (ts.flatMap (enc c1 c2)))
  | .huffman => (Huff.encoder std ls).bind fun m => (encHuff c1 ls m.1 ts).bind fun bs => .ok (BitO.toBytes (m.2 ++ bs))

/-- `Decoder::decode` -/
abbrev Dec := Rng → List Bool → Res (Nat × List Bool)

/-- construct the decoders and run `body` with the literal decoder (lfs/EncodeStrategy.hpp:195-203, lfs/LFS2Compressor.hpp:527-535) -/
def read {α : Type} (lc : LitCoder) (body : Dec → List Bool → Res α) (bytes : List UInt8) : Res α :=
  match lc with
  | .plain c2 => body c2.dec (bitsOf bytes)
  | .huffman => (Huff.decoder (bitsOf bytes)).bind fun d => body (Huff.decode d.1) d.2

/-- subtraction of `uint`s (irreducible for the prover's sake only) -/
@[irreducible] def sub32 (a b : Nat) : Nat := (a + 2 ^ 32 - b) % 2 ^ 32

/-- truncation to `uint` (irreducible for the prover's sake only) -/
@[irreducible] def u32 (a : Nat) : Nat := a % 2 ^ 32

/-- `Range(0, UINT_MAX)` -/
def intR : Rng := .range 0 (2 ^ 32 - 1)

/-- lfs/EncodeStrategy.hpp:86-95, lfs/LFS2Compressor.hpp:422-432: the differences of the following lengths, then the last length -/
def deltaToks (r : Rng) : Nat → List (Nat × Nat) → List Tok
  | last, [] => [.len r last]
  | last, (_, l) :: rest => .len r (sub32 last l) :: deltaToks r l rest

/-- lfs/EncodeStrategy.hpp:76-99, lfs/LFS2Compressor.hpp:411-437: the lengths of the rules (begin, length) -/
def lenToks : List (Nat × Nat) → List Tok
  | [] => [.len intR 0]
  | (_, l) :: rest => .len intR l :: deltaToks (.range 0 l) l rest

/-- lfs/EncodeStrategy.hpp:211-217, lfs/LFS2Compressor.hpp:540-548: the lengths of the rules; the terminating 0 is dropped.  Each round of the loop
reads at least a bit of a complete file, `fuel` bounds the rounds. -/
def decLensLoop (d1 : Dec) (r : Rng) : Nat → Nat → List Bool → Res (List Nat × List Bool)
  | 0, _, _ => .error .loop
  | fuel + 1, l, bs =>
    if l > 0 then
      (d1 r bs).bind fun v => (decLensLoop d1 r fuel (sub32 l (u32 v.1)) v.2).bind fun x => .ok (l :: x.1, x.2)
    else .ok ([], bs)

/-- lfs/EncodeStrategy.hpp:204-218, lfs/LFS2Compressor.hpp:536-549 -/
def decLens (d1 : Dec) (bs : List Bool) : Res (List Nat × List Bool) :=
  (d1 intR bs).bind fun v => decLensLoop d1 (.range 0 (u32 v.1)) (bs.length + 1) (u32 v.1) v.2

end Lfs
end Tdc
