import Verif.Model.LZ78

/-!
# compressors/LZWCompressor.hpp, compressors/lzw/LZWDecoding.hpp
-/

namespace Tdc

/-- compressors/LZWCompressor.hpp:53-62 `reset_dict`: clear, then one root node for each of the 256 characters
(`ULITERAL_MAX` = 255). -/
def lzwReset (T : TrieImpl) (s : T.σ) : T.σ :=
  (List.range 256).foldl (fun s i => T.addRoot s (UInt8.ofNat i)) (T.clear s)

/-- compressors/LZWCompressor.hpp:72-101, loop and left-over: one code per factor, coded with
`Range(factor_count + ULITERAL_MAX + 1)`. -/
def lzwLoop (T : TrieImpl) (dms : Nat) : List UInt8 → T.σ → Nat → Nat → Res (List Token)
  | [], _, node, fc => .ok [(.range 0 (fc + 256), node)]                         -- :99
  | c :: cs, s, node, fc =>
    match T.findOrInsert s node c with                                           -- :74
    | .error e => .error e
    | .ok (s, _, true) =>                                                        -- :77-90
      let (s, root) := T.getRoot s c
      let rest := if T.size s = dms then lzwLoop T dms cs (lzwReset T s) root 0
        else lzwLoop T dms cs s root (fc + 1)
      match rest with
      | .error e => .error e
      | .ok es => .ok ((.range 0 (fc + 256), node) :: es)
    | .ok (s, child, false) => lzwLoop T dms cs s child fc                       -- :91-93

/-- compressors/LZWCompressor.hpp:39-108 `compress` -/
def lzwCompress (T : TrieImpl) (c : UCoder) (dms : Nat) (text : List UInt8) : Res (List UInt8) :=
  let s := lzwReset T T.empty
  match text with
  | [] => .ok (BitO.toBytes [])                                                  -- :68
  | ch :: cs =>
    let (s, node) := T.getRoot s ch                                              -- :70
    match lzwLoop T dms cs s node 0 with
    | .error e => .error e
    | .ok es => .ok (BitO.toBytes (c.encAll es))

/-- compressors/lzw/LZWDecoding.hpp:20-29 `reset_dictionary` -/
def lzwRoots (dms : Nat) : List (Nat × UInt8) := (List.range 256).map fun c => (dms, UInt8.ofNat c)

/-- compressors/lzw/LZWDecoding.hpp:31-47 `rebuild_string` (the pushes followed by `std::reverse`). -/
def lzwRebuild (dms : Nat) (D : List (Nat × UInt8)) : Nat → Nat → List UInt8 → Res (List UInt8)
  | 0, _, _ => .error .loop
  | fuel + 1, k, acc =>
    if k = dms then .ok acc
    else
      match vget D k with
      | .error e => .error e
      | .ok (p, c) => lzwRebuild dms D fuel p (c :: acc)

/-- `front()` -/
def lzwFront : List UInt8 → Res UInt8
  | [] => .error .ub
  | c :: _ => .ok c

/-- compressors/lzw/LZWDecoding.hpp:72-94: one step for code `k` with previous code `i`: new dictionary and string. -/
def lzwStep (dms : Nat) (D : List (Nat × UInt8)) (i k : Nat) : Res (List (Nat × UInt8) × List UInt8) :=
  if k > D.length then .error .throw
  else if k = D.length then
    match lzwRebuild dms D (D.length + 1) i [] with
    | .error e => .error e
    | .ok si =>
      match lzwFront si with
      | .error e => .error e
      | .ok f =>
        let D := D ++ [(i, f)]
        match lzwRebuild dms D (D.length + 1) k [] with
        | .error e => .error e
        | .ok s => if s = [] then .error .ub else .ok (D, s)
  else
    match lzwRebuild dms D (D.length + 1) k [] with
    | .error e => .error e
    | .ok s =>
      match lzwFront s with
      | .error e => .error e
      | .ok f => .ok (if i ≠ dms then D ++ [(i, f)] else D, s)

/-- compressors/lzw/LZWDecoding.hpp:56-95 with the callback of compressors/LZWCompressor.hpp:119-132; `ctr` is `counter`. -/
def lzwDecLoop (c : UCoder) (dms : Nat) : Nat → List Bool → List (Nat × UInt8) → Nat → Nat → Res (List UInt8)
  | 0, _, _, _, _ => .error .loop
  | fuel + 1, bits, D, i, ctr =>
    let (D, ctr) := if D.length = dms then (lzwRoots dms, 0) else (D, ctr)
    if bits.isEmpty then .ok []
    else
      match c.dec (.range 0 (ctr + 256)) bits with
      | .error e => .error e
      | .ok (k, bits) =>
        let k := k % 2 ^ 32
        match lzwStep dms D i k with
        | .error e => .error e
        | .ok (D, s) =>
          match lzwDecLoop c dms fuel bits D k (ctr + 1) with
          | .error e => .error e
          | .ok t => .ok (s ++ t)

/-- compressors/LZWCompressor.hpp:110-133 `decompress`; `DMS_MAX` (LZ78Trie.hpp:17) is the largest `factorid_t`. -/
def lzwDecompress (c : UCoder) (dms : Nat) (bytes : List UInt8) : Res (List UInt8) :=
  let bits := bitsOf bytes
  let dms := if dms = 0 then undefId else dms
  lzwDecLoop c dms (bits.length + 1) bits (lzwRoots dms) dms 0

end Tdc
