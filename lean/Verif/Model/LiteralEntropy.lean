import Verif.Model.Huffman
import Verif.Model.SLE
import Verif.Model.Simple

/-!
# compressors/LiteralEncoder.hpp with the entropy coders

`encode(huff)` and `encode(sle)`; `encode(arithmetic)` is `Arith.compress` and `Arith.decompress` (Model/Arithmetic.lean), the universal coders
are in Model/Simple.lean. The literals announced to the coder are all characters of the text with their positions (Literal.hpp:41-70
`ViewLiterals`).
-/

namespace Tdc

/-- compressors/LiteralEncoder.hpp:20-32 `compress` with the Huffman coder -/
def litHuffCompress (std : StdLib) (text : List UInt8) : Res (List UInt8) := Huff.writeFile std text (literalTokens text)

/-- compressors/LiteralEncoder.hpp:34-41 `decompress` with the Huffman coder; every literal takes a bit -/
def litHuffDecompress (bytes : List UInt8) : Res (List UInt8) :=
  match Huff.decoder (bitsOf bytes) with
  | .error e => .error e
  | .ok (d, bs) => literalLoop (Huff.decCoder d) (bs.length + 1) bs

/-- compressors/LiteralEncoder.hpp:20-32 `compress` with the SLE coder and its option `kmer` -/
def litSleCompress (k : Nat) (text : List UInt8) : Res (List UInt8) :=
  match SLE.run k text.zipIdx (text.map fun c => (.literal, c.toNat)) with
  | .error e => .error e
  | .ok bits => .ok (BitO.toBytes bits)

/-- compressors/LiteralEncoder.hpp:38-40 `while(!decoder.eof())`, where the decoder may hold characters of a k-mer -/
def litSleLoop : Nat → SLE.Dec → Res (List UInt8)
  | 0, _ => .error .loop
  | fuel + 1, d =>
    if d.eof then .ok []
    else
      match d.decode .literal with
      | .error e => .error e
      | .ok (v, d) =>
        match litSleLoop fuel d with
        | .error e => .error e
        | .ok out => .ok (UInt8.ofNat v :: out)

/-- compressors/LiteralEncoder.hpp:34-41 `decompress` with the SLE coder; `k` characters at most are delivered per symbol read -/
def litSleDecompress (k : Nat) (bytes : List UInt8) : Res (List UInt8) :=
  match SLE.Dec.open k (bitsOf bytes) with
  | .error e => .error e
  | .ok d => litSleLoop ((k + 1) * (bitsOf bytes).length + 1) d

end Tdc
