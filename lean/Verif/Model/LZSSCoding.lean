import Verif.Model.LZSSWindow

/-!
# compressors/lzss/{LZSSFactors,LZSSCoding,LZSSDecodeBackBuffer}.hpp
-/

namespace Tdc

/-- compressors/lzss/LZSSFactors.hpp:13-20 `Factor` (the fields are `len_compact_t`, 32 bits by default) -/
structure Factor where
  pos : Nat
  src : Nat
  len : Nat
deriving DecidableEq, Repr

/-- compressors/lzss/LZSSFactors.hpp:37, 46: `m_shortest_factor`, starts with `INDEX_MAX` -/
def shortestFactor (fs : List Factor) : Nat := fs.foldl (fun m f => min m f.len) (2 ^ 32 - 1)

/-- compressors/lzss/LZSSFactors.hpp:38, 47: `m_longest_factor` -/
def longestFactor (fs : List Factor) : Nat := fs.foldl (fun m f => max m f.len) 0

/-- compressors/lzss/LZSSCoding.hpp:28-39: longest distance between two factors. The subtractions are unsigned; the
statements require sorted, non-overlapping factors inside the text, for which they do not wrap around. -/
def fdistMaxLoop (n : Nat) : List Factor → Nat → Nat → Nat
  | [], p, m => max m (n - p)
  | f :: fs, p, m => fdistMaxLoop n fs (f.pos + f.len) (max m (f.pos - p))

/-- compressors/lzss/LZSSCoding.hpp:71-73, 88-91: `while(p < end) coder.encode(text[p++], literal_r)` -/
def litTokens (text : List UInt8) (p e : Nat) : List Token :=
  ((text.drop p).take (e - p)).map fun c => (.literal, c.toNat)

/-- compressors/lzss/LZSSCoding.hpp:52-91: walk over the factors; `p` is the current text position -/
def lzssBody (text : List UInt8) (fmin fmax fdist : Nat) : List Factor → Nat → List Token
  | [], p =>
    (if p < text.length then [(.bit, 1), (.range 0 fdist, text.length - p)] else []) ++ litTokens text p text.length
  | f :: fs, p =>
    (if f.pos = p then [(.bit, 0)] else [(.bit, 1), (.range 0 fdist, f.pos - p)]) ++
    litTokens text p f.pos ++
    [(.range 0 text.length, f.src), (.range fmin fmax, f.len)] ++
    -- `p` reaches `factor.pos` (or stays if it is already beyond), then advances by the length
    lzssBody text fmin fmax fdist fs (max p f.pos + f.len)

/-- compressors/lzss/LZSSCoding.hpp:46-50: the four ranges -/
def lzssHeader (text : List UInt8) (fs : List Factor) : List Token :=
  [(.range 0 (2 ^ 32 - 1), text.length), (.range 0 text.length, shortestFactor fs), (.range 0 text.length, longestFactor fs),
   (.range 0 text.length, fdistMaxLoop text.length fs 0 0)]

/-- compressors/lzss/LZSSCoding.hpp:18-92 `encode_text` as the sequence of `encode` calls -/
def lzssEncode (text : List UInt8) (fs : List Factor) : List Token :=
  lzssHeader text fs ++ lzssBody text (shortestFactor fs) (longestFactor fs) (fdistMaxLoop text.length fs 0 0) fs 0

/-- The calls `decode_text` makes on its decode buffer. -/
inductive DecOp where
  | lit (c : UInt8)
  | fac (src len : Nat)
deriving DecidableEq, Repr

/-- compressors/lzss/LZSSCoding.hpp:121-124: `while(num--)` decode a literal -/
def decLits (c : UCoder) : Nat → List Bool → Res (List DecOp × List Bool)
  | 0, bits => .ok ([], bits)
  | n + 1, bits =>
    match c.dec .literal bits with
    | .error e => .error e
    | .ok (v, bits) =>
      match decLits c n bits with
      | .error e => .error e
      | .ok (ops, bits) => .ok (.lit (UInt8.ofNat v) :: ops, bits)

/-- compressors/lzss/LZSSCoding.hpp:113-133: the main loop of `decode_text`, `n` = `text_len` -/
def lzssDecLoop (c : UCoder) (n fmin fmax fdist : Nat) : Nat → List Bool → Res (List DecOp)
  | 0, _ => .error .loop
  | fuel + 1, bits =>
    if bits.isEmpty then .ok []
    else
      match c.dec .bit bits with
      | .error e => .error e
      | .ok (b, bits) =>
        match (if b ≠ 0 then c.dec (.range 0 fdist) bits else .ok (0, bits)) with
        | .error e => .error e
        | .ok (num, bits) =>
          match decLits c (num % 2 ^ 32) bits with
          | .error e => .error e
          | .ok (ops, bits) =>
            if bits.isEmpty then .ok ops          -- the next test of the loop condition fails, too
            else
              match c.dec (.range 0 n) bits with
              | .error e => .error e
              | .ok (src, bits) =>
                match c.dec (.range fmin fmax) bits with
                | .error e => .error e
                | .ok (len, bits) =>
                  match lzssDecLoop c n fmin fmax fdist fuel bits with
                  | .error e => .error e
                  | .ok rest => .ok (ops ++ .fac (src % 2 ^ 32) (len % 2 ^ 32) :: rest)

/-- compressors/lzss/LZSSCoding.hpp:94-133 `decode_text`: text length and the calls on the decode buffer -/
def lzssDecode (c : UCoder) (bits : List Bool) : Res (Nat × List DecOp) :=
  match c.dec (.range 0 (2 ^ 32 - 1)) bits with
  | .error e => .error e
  | .ok (n, bits) =>
    let n := n % 2 ^ 32
    match c.dec (.range 0 n) bits with
    | .error e => .error e
    | .ok (fmin, bits) =>
      match c.dec (.range 0 n) bits with
      | .error e => .error e
      | .ok (fmax, bits) =>
        match c.dec (.range 0 n) bits with
        | .error e => .error e
        | .ok (fdist, bits) =>
          match lzssDecLoop c n (fmin % 2 ^ 32) (fmax % 2 ^ 32) (fdist % 2 ^ 32) (bits.length + 1) bits with
          | .error e => .error e
          | .ok ops => .ok (n, ops)

/-- compressors/lzss/LZSSDecodeBackBuffer.hpp:13-14: the buffer (its size is fixed) and the cursor -/
structure BackBuf where
  buf : List UInt8
  cursor : Nat
deriving DecidableEq, Repr

/-- compressors/lzss/LZSSDecodeBackBuffer.hpp:24-26; outside of the vector is undefined -/
def BackBuf.put (b : BackBuf) (c : UInt8) : Res BackBuf :=
  if b.cursor < b.buf.length then .ok ⟨b.buf.set b.cursor c, b.cursor + 1⟩ else .error .ub

/-- compressors/lzss/LZSSDecodeBackBuffer.hpp:28-30 -/
def BackBuf.copy (b : BackBuf) (pos : Nat) : Nat → Res BackBuf
  | 0 => .ok b
  | num + 1 =>
    match vget b.buf pos with
    | .error e => .error e
    | .ok c =>
      match b.put c with
      | .error e => .error e
      | .ok b => b.copy (pos + 1) num

/-- run the calls -/
def BackBuf.run (b : BackBuf) : List DecOp → Res BackBuf
  | [] => .ok b
  | .lit c :: ops =>
    match b.put c with
    | .error e => .error e
    | .ok b => b.run ops
  | .fac src len :: ops =>
    match b.copy src len with
    | .error e => .error e
    | .ok b => b.run ops

/-- `decode_text<coder, DecodeBackBuffer>`: compressors/lzss/LZSSCoding.hpp:110, 139; LZSSDecodeBackBuffer.hpp:18-22, 36-38 -/
def lzssDecodeBack (c : UCoder) (bits : List Bool) : Res (List UInt8) :=
  match lzssDecode c bits with
  | .error e => .error e
  | .ok (n, ops) =>
    match (BackBuf.mk (List.replicate n 0) 0).run ops with
    | .error e => .error e
    | .ok b => .ok b.buf

end Tdc
