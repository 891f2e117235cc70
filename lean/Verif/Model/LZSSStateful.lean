import Verif.Model.LZSSLiterals
import Verif.Model.SLE

/-!
# compressors/lzss/LZSSCoding.hpp over an arbitrary coder

The model of `Model/LZSSCoding.lean` with a decoder that has a state of its own and distinguishes `MinDistributedRange` (needed for
`SLECoder`).
-/

namespace Tdc

open SLE (SRng)

/-- A decoder as the decompressors see it (Coder.hpp:93-137): `decode<size_t>(r)` and `eof()`. -/
structure SDec (σ : Type) where
  dec : SRng → σ → Res (Nat × σ)
  eof : σ → Bool

/-- compressors/lzss/LZSSCoding.hpp:41-44: `flen_r` is a `MinDistributedRange`, all others are `Range`s -/
def lzssBodyS (text : List UInt8) (fmin fmax fdist : Nat) : List Factor → Nat → List (SRng × Nat)
  | [], p =>
    (if p < text.length then [(.bit, 1), (.range 0 fdist, text.length - p)] else []) ++
      ((text.drop p).map fun c => (.literal, c.toNat))
  | f :: fs, p =>
    (if f.pos = p then [(.bit, 0)] else [(.bit, 1), (.range 0 fdist, f.pos - p)]) ++
    (((text.drop p).take (f.pos - p)).map fun c => (.literal, c.toNat)) ++
    [(.range 0 text.length, f.src), (.minDist fmin fmax, f.len)] ++
    lzssBodyS text fmin fmax fdist fs (max p f.pos + f.len)

/-- compressors/lzss/LZSSCoding.hpp:46-50 -/
def lzssHeaderS (text : List UInt8) (fmin fmax fdist : Nat) : List (SRng × Nat) :=
  [(.range 0 (2 ^ 32 - 1), text.length), (.range 0 text.length, fmin), (.range 0 text.length, fmax), (.range 0 text.length, fdist)]

/-- compressors/lzss/LZSSCoding.hpp:18-92 `encode_text` -/
def lzssEncodeS (text : List UInt8) (fs : List Factor) : List (SRng × Nat) :=
  lzssHeaderS text (shortestFactor fs) (longestFactor fs) (fdistMaxLoop text.length fs 0 0) ++
    lzssBodyS text (shortestFactor fs) (longestFactor fs) (fdistMaxLoop text.length fs 0 0) fs 0

/-- compressors/lzss/LZSSCoding.hpp:121-124 -/
def decLitsS {σ : Type} (D : SDec σ) : Nat → σ → Res (List DecOp × σ)
  | 0, s => .ok ([], s)
  | n + 1, s =>
    match D.dec .literal s with
    | .error e => .error e
    | .ok (v, s) =>
      match decLitsS D n s with
      | .error e => .error e
      | .ok (ops, s) => .ok (.lit (UInt8.ofNat v) :: ops, s)

/-- compressors/lzss/LZSSCoding.hpp:113-133; `fuel` bounds the rounds of the loop -/
def lzssDecLoopS {σ : Type} (D : SDec σ) (n fmin fmax fdist : Nat) : Nat → σ → Res (List DecOp)
  | 0, _ => .error .loop
  | fuel + 1, s =>
    if D.eof s then .ok []
    else
      match D.dec .bit s with
      | .error e => .error e
      | .ok (b, s) =>
        match (if b ≠ 0 then D.dec (.range 0 fdist) s else .ok (0, s)) with
        | .error e => .error e
        | .ok (num, s) =>
          match decLitsS D (num % 2 ^ 32) s with
          | .error e => .error e
          | .ok (ops, s) =>
            if D.eof s then .ok ops
            else
              match D.dec (.range 0 n) s with
              | .error e => .error e
              | .ok (src, s) =>
                match D.dec (.minDist fmin fmax) s with
                | .error e => .error e
                | .ok (len, s) =>
                  match lzssDecLoopS D n fmin fmax fdist fuel s with
                  | .error e => .error e
                  | .ok rest => .ok (ops ++ .fac (src % 2 ^ 32) (len % 2 ^ 32) :: rest)

/-- compressors/lzss/LZSSCoding.hpp:94-133 `decode_text` -/
def lzssDecodeS {σ : Type} (D : SDec σ) (fuel : Nat) (s : σ) : Res (Nat × List DecOp) :=
  match D.dec (.range 0 (2 ^ 32 - 1)) s with
  | .error e => .error e
  | .ok (n, s) =>
    let n := n % 2 ^ 32
    match D.dec (.range 0 n) s with
    | .error e => .error e
    | .ok (fmin, s) =>
      match D.dec (.range 0 n) s with
      | .error e => .error e
      | .ok (fmax, s) =>
        match D.dec (.range 0 n) s with
        | .error e => .error e
        | .ok (fdist, s) =>
          match lzssDecLoopS D n (fmin % 2 ^ 32) (fmax % 2 ^ 32) (fdist % 2 ^ 32) fuel s with
          | .error e => .error e
          | .ok ops => .ok (n, ops)

/-- the decoder of `SLECoder` -/
def sleDec : SDec SLE.Dec := ⟨fun r d => d.decode r, SLE.Dec.eof⟩

/-- `encode_text` with the SLE coder, the announced literals being `TextLiterals(text, factors)`
(compressors/LZSSLCPCompressor.hpp:118-123, compressors/LCPCompressor.hpp:132-138) -/
def lzssSleEncode (k : Nat) (text : List UInt8) (fs : List Factor) : Res (List UInt8) :=
  match textLiterals text fs with
  | .error e => .error e
  | .ok ls =>
    match SLE.run k ls (lzssEncodeS text fs) with
    | .error e => .error e
    | .ok bits => .ok (BitO.toBytes bits)

/-- the calls `decode_text` with the SLE coder makes on its decode buffer; every round of the loop of `decode_text` reads a bit, so the
number of bits bounds the rounds -/
def lzssSleOps (k : Nat) (bytes : List UInt8) : Res (Nat × List DecOp) :=
  match SLE.Dec.open k (bitsOf bytes) with
  | .error e => .error e
  | .ok d => lzssDecodeS sleDec ((bitsOf bytes).length + 1) d

/-- `decode_text<…, DecodeBackBuffer>` with the SLE coder -/
def lzssSleDecode (k : Nat) (bytes : List UInt8) : Res (List UInt8) :=
  match lzssSleOps k bytes with
  | .error e => .error e
  | .ok (n, ops) =>
    match (BackBuf.mk (List.replicate n 0) 0).run ops with
    | .error e => .error e
    | .ok b => .ok b.buf

end Tdc
