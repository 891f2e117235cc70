import Verif.Model.LZSSCoding
import Verif.Model.TextDS

/-!
# compressors/LZSSLCPCompressor.hpp
-/

namespace Tdc

/-- compressors/LZSSLCPCompressor.hpp:74-76: search upwards for a smaller suffix array entry. The index is `psv_pos + 1`
(`psv_pos` is signed and may become -1); `cur` is `sa[cur_pos]`. -/
def psvLoop (A : TextArrays) (cur : Nat) : Nat → Nat → Res (Nat × Nat)
  | 0, l => .ok (0, l)
  | p + 1, l =>
    match vget A.sa p with
    | .error e => .error e
    | .ok sp =>
      if sp > cur then
        match vget A.lcp p with
        | .error e => .error e
        | .ok x => psvLoop A cur p (min l x)
      else .ok (p + 1, l)

/-- compressors/LZSSLCPCompressor.hpp:86-91: the `do … while` loop, `k` entries from `pos` to the end of the array.
Result `none`: the end was reached without a smaller entry. -/
def nsvLoop (A : TextArrays) (cur : Nat) : Nat → Nat → Nat → Res (Option (Nat × Nat))
  | 0, _, _ => .ok none
  | k + 1, pos, l =>
    match vget A.lcp pos, vget A.sa pos with
    | .ok x, .ok sp => if sp < cur then .ok (some (pos, min l x)) else nsvLoop A cur k (pos + 1) (min l x)
    | _, _ => .error .ub

/-- compressors/LZSSLCPCompressor.hpp:65-99 for text position `i`: `psv_pos + 1`, `psv_lcp`, `nsv_pos`, `nsv_lcp`
(`SSIZE_MAX` is 2^63 - 1). -/
def lpfSearch (A : TextArrays) (n i : Nat) : Res (Nat × Nat × Nat × Nat) :=
  match vget A.isa i with
  | .error e => .error e
  | .ok cur =>
    match vget A.lcp cur, vget A.sa cur with
    | .ok l0, .ok scur =>
      match (if l0 > 0 then psvLoop A scur cur l0 else .ok (cur, l0)) with
      | .error e => .error e
      | .ok (pp, pl) =>
        match nsvLoop A scur (n - (cur + 1)) (cur + 1) (2 ^ 63 - 1) with
        | .error e => .error e
        | .ok none => .ok (pp, pl, n, 0)
        | .ok (some (np, nl)) => .ok (pp, pl, np, nl)
    | _, _ => .error .ub

/-- compressors/LZSSLCPCompressor.hpp:63-111: the factorization loop (fuel; with `threshold = 0` the loop may not advance) -/
def lcpFactorLoop (A : TextArrays) (n threshold : Nat) : Nat → Nat → Res (List Factor)
  | 0, _ => .error .loop
  | fuel + 1, i =>
    if i + 1 < n then
      match lpfSearch A n i with
      | .error e => .error e
      | .ok (pp, pl, np, nl) =>
        let m := max pl nl
        if m ≥ threshold then
          match (if m = pl then (if pp = 0 then .error .ub else vget A.sa (pp - 1)) else vget A.sa np) with
          | .error e => .error e
          | .ok src =>
            match lcpFactorLoop A n threshold fuel (i + m) with
            | .error e => .error e
            | .ok fs => .ok (⟨i, src, m⟩ :: fs)
        else lcpFactorLoop A n threshold fuel (i + 1)
    else .ok []

/-- the factors, given the arrays -/
def lcpFactors (A : TextArrays) (n threshold : Nat) : Res (List Factor) := lcpFactorLoop A n threshold (n + 1) 0

/-- compressors/LZSSLCPCompressor.hpp:42-124 `compress`; `sa` is the result of divsufsort -/
def lzssLcpCompress (c : UCoder) (pk : Packs) (threshold : Nat) (text : List UInt8) (sa : List Nat) : Res (List UInt8) :=
  match textDS pk text sa with
  | .error e => .error e
  | .ok A =>
    match lcpFactors A text.length threshold with
    | .error e => .error e
    | .ok fs => .ok (BitO.toBytes (c.encAll (lzssEncode text fs)))

/-- compressors/LZSSLCPCompressor.hpp:126-131 `decompress` -/
def lzssLcpDecompress (c : UCoder) (bytes : List UInt8) : Res (List UInt8) := lzssDecodeBack c (bitsOf bytes)

end Tdc
