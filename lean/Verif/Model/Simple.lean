import Verif.Model.Coders
import Verif.Model.VByte

/-!
# Model of the simple compressors: noop, encode (LiteralEncoder), rle, mtf

`Input`/`Output` are the byte strings read and written.
-/

namespace Tdc

/-! ## NoopCompressor -/

/-- compressors/NoopCompressor.hpp:22-45 / 47-70: both directions copy the input, read as a stream or as a
view (`mode`), optionally through a string (`debug`). -/
def noopRun (_streamMode _debug : Bool) (input : List UInt8) : List UInt8 := input

/-! ## LiteralEncoder -/

/-- compressors/LiteralEncoder.hpp:20-32 `compress`: one literal token per byte. -/
def literalTokens (text : List UInt8) : List Token := text.map fun c => (.literal, c.toNat)

/-- compressors/LiteralEncoder.hpp:20-32 down to the bytes of the output. -/
def literalCompress (c : UCoder) (text : List UInt8) : List UInt8 :=
  BitO.toBytes (c.encAll (literalTokens text))

/-- compressors/LiteralEncoder.hpp:38-40 `while(!decoder.eof())` (fuel: each token consumes a bit). -/
def literalLoop (c : UCoder) : Nat → List Bool → Res (List UInt8)
  | 0, _ => .error .loop
  | fuel + 1, bs =>
    if bs.isEmpty then .ok []
    else
      match c.dec .literal bs with
      | .error e => .error e
      | .ok (v, bs) =>
        match literalLoop c fuel bs with
        | .error e => .error e
        | .ok out => .ok (UInt8.ofNat v :: out)

/-- compressors/LiteralEncoder.hpp:34-41 `decompress` -/
def literalDecompress (c : UCoder) (bytes : List UInt8) : Res (List UInt8) :=
  literalLoop c ((bitsOf bytes).length + 1) (bitsOf bytes)

/-! ## RunLengthEncoder -/

/-- compressors/RunLengthEncoder.hpp:24 `while(is.peek() == c) { ++run; is.get(); }`.
`peek()` is an `int`: the byte as an unsigned value, or `EOF = -1`; `c` is a signed `char`.
At the end of the stream with `c = -1` the loop never ends. -/
def peekRun (c : UInt8) : List UInt8 → Res (Nat × List UInt8)
  | [] => if (-1 : Int) = schar c then .error .loop else .ok (0, [])
  | b :: rest =>
    if (b.toNat : Int) = schar c then
      match peekRun c rest with
      | .error e => .error e
      | .ok (run, r) => .ok (run + 1, r)
    else .ok (0, b :: rest)

/-- compressors/RunLengthEncoder.hpp:20-31 loop of `rle_encode` (fuel ≥ number of bytes left). -/
def rleEncLoop (offset : Nat) : Nat → UInt8 → List UInt8 → Res (List UInt8)
  | _, _, [] => .ok []
  | 0, _, _ => .error .loop
  | fuel + 1, prev, c :: rest =>
    if prev = c then
      match peekRun c rest with
      | .error e => .error e
      | .ok (run, rest) =>
        match rleEncLoop offset fuel c rest with
        | .error e => .error e
        | .ok out => .ok (c :: (writeVByte ((run + offset) % 2 ^ 64) ++ out))
    else
      match rleEncLoop offset fuel c rest with
      | .error e => .error e
      | .ok out => .ok (c :: out)

/-- compressors/RunLengthEncoder.hpp:16-32 `rle_encode` -/
def rleEncode (offset : Nat) : List UInt8 → Res (List UInt8)
  | [] => .ok []
  | prev :: rest =>
    match rleEncLoop offset rest.length prev rest with
    | .error e => .error e
    | .ok out => .ok (prev :: out)

/-- compressors/RunLengthEncoder.hpp:41-49 loop of `rle_decode`; `run` is a `size_t`. -/
def rleDecLoop (offset : Nat) : Nat → UInt8 → List UInt8 → Res (List UInt8)
  | _, _, [] => .ok []
  | 0, _, _ => .error .loop
  | fuel + 1, prev, c :: rest =>
    if prev = c then
      match readVByte 64 rest with
      | .error e => .error e
      | .ok (v, rest) =>
        let run := (v + 2 ^ 64 - offset % 2 ^ 64) % 2 ^ 64
        match rleDecLoop offset fuel c rest with
        | .error e => .error e
        | .ok out => .ok (List.replicate run c ++ c :: out)
    else
      match rleDecLoop offset fuel c rest with
      | .error e => .error e
      | .ok out => .ok (c :: out)

/-- compressors/RunLengthEncoder.hpp:37-50 `rle_decode` -/
def rleDecode (offset : Nat) : List UInt8 → Res (List UInt8)
  | [] => .ok []
  | prev :: rest =>
    match rleDecLoop offset rest.length prev rest with
    | .error e => .error e
    | .ok out => .ok (prev :: out)

/-! ## MTFCompressor -/

/-- compressors/MTFCompressor.hpp:20-22, 38-40 `for(j = i; j > 0; --j) table[j] = table[j-1]` -/
def mtfShift : Nat → List UInt8 → List UInt8
  | 0, table => table
  | j + 1, table => mtfShift j (table.set (j + 1) (table.getD j 0))

/-- compressors/MTFCompressor.hpp:18-28: search from index `i`; the `DCHECK(false)` path returns 0. -/
def mtfFind (v : UInt8) (table : List UInt8) (i : Nat) : Nat → UInt8 × List UInt8
  | 0 => (0, table)
  | n + 1 =>
    if table.getD i 0 = v then (UInt8.ofNat i, (mtfShift i table).set 0 v)
    else mtfFind v table (i + 1) n

/-- compressors/MTFCompressor.hpp:17-29 `mtf_encode_char`, `table_size` = 256 -/
def mtfEncodeChar (v : UInt8) (table : List UInt8) : UInt8 × List UInt8 := mtfFind v table 0 256

/-- compressors/MTFCompressor.hpp:36-43 `mtf_decode_char` -/
def mtfDecodeChar (v : UInt8) (table : List UInt8) : UInt8 × List UInt8 :=
  let r := table.getD v.toNat 0
  (r, (mtfShift v.toNat table).set 0 r)

/-- compressors/MTFCompressor.hpp:49-50 `std::iota` -/
def mtfInit : List UInt8 := (List.range 256).map UInt8.ofNat

/-- compressors/MTFCompressor.hpp:52-55, 65-68: the `while(is.get(c))` loops; also returns the final table. -/
def mtfLoop (f : UInt8 → List UInt8 → UInt8 × List UInt8) : List UInt8 → List UInt8 → List UInt8 × List UInt8
  | table, [] => ([], table)
  | table, c :: cs =>
    let (o, table) := f c table
    let (os, table) := mtfLoop f table cs
    (o :: os, table)

/-- compressors/MTFCompressor.hpp:46-56 `mtf_encode` -/
def mtfEncode (text : List UInt8) : List UInt8 := (mtfLoop mtfEncodeChar mtfInit text).1
/-- compressors/MTFCompressor.hpp:59-69 `mtf_decode` -/
def mtfDecode (text : List UInt8) : List UInt8 := (mtfLoop mtfDecodeChar mtfInit text).1

end Tdc
