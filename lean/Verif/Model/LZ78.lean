import Verif.Model.Coders
import Verif.Model.Trie

/-!
# compressors/LZ78Compressor.hpp
-/

namespace Tdc

/-- One `coder.encode` call of a compressor: a value with its range, or a signed `char` with the literal range. -/
inductive Emit where
  | tok (r : Rng) (v : Nat)
  | schar (c : UInt8)
deriving DecidableEq, Repr

/-- Bits written by a sequence of calls. -/
def UCoder.encEmits (c : UCoder) : List Emit → Res (List Bool)
  | [] => .ok []
  | .tok r v :: es =>
    match c.encEmits es with
    | .error e => .error e
    | .ok bs => .ok (c.enc r v ++ bs)
  | .schar ch :: es =>
    match c.encSChar ch with
    | none => .error .ub
    | some b =>
      match c.encEmits es with
      | .error e => .error e
      | .ok bs => .ok (b ++ bs)

/-- compressors/LZ78Compressor.hpp:96-131, the main loop and the treatment of left-overs. `dms` is `m_dict_max_size`;
`node`, `parent`, `fc` (`factor_count`) and `c` are the loop variables. -/
def lz78Loop (T : TrieImpl) (dms : Nat) : List UInt8 → T.σ → Nat → Nat → Nat → UInt8 → Res (List Emit)
  | [], _, node, parent, fc, c =>
    if node ≠ 0 then .ok [.tok (.range 0 fc) parent, .schar c] else .ok []        -- :124-131
  | c :: cs, s, node, _, fc, _ =>
    match T.findOrInsert s node c with                                            -- :99
    | .error e => .error e
    | .ok (s, _, true) =>                                                         -- :100-116
      let (s, root) := T.getRoot s 0
      let rest := if T.size s = dms then lz78Loop T dms cs (T.addRoot (T.clear s) 0) root root 0 c
        else lz78Loop T dms cs s root root (fc + 1) c
      match rest with
      | .error e => .error e
      | .ok es => .ok (.tok (.range 0 fc) node :: .tok .literal c.toNat :: es)
    | .ok (s, child, false) => lz78Loop T dms cs s child node fc c                -- :117-120

/-- compressors/LZ78Compressor.hpp:64-140 `compress`: the bytes of the output. -/
def lz78Compress (T : TrieImpl) (c : UCoder) (dms : Nat) (text : List UInt8) : Res (List UInt8) :=
  let s := T.addRoot (T.clear T.empty) 0
  let (s, root) := T.getRoot s 0
  match lz78Loop T dms text s root root 0 0 with
  | .error e => .error e
  | .ok es =>
    match c.encEmits es with
    | .error e => .error e
    | .ok bits => .ok (BitO.toBytes bits)

/-- compressors/LZ78Compressor.hpp:26-35: follow the references; `buf` is the buffer (last pushed first), which is
written in that order after the first literal. More steps than there are entries means that the loop is cyclic. -/
def lz78Chain (indices : List Nat) (literals : List UInt8) : Nat → Nat → UInt8 → List UInt8 → Res (List UInt8)
  | 0, _, _, _ => .error .loop
  | fuel + 1, index, literal, buf =>
    if index = 0 then .ok (literal :: buf)
    else
      match vget literals (index - 1), vget indices (index - 1) with
      | .ok l, .ok i => lz78Chain indices literals fuel i l (literal :: buf)
      | _, _ => .error .ub

/-- compressors/LZ78Compressor.hpp:149-154, 21-36: the decompression loop, `fc` = `factor_count`. `factorid_t` is 32 bits,
`uliteral_t` 8 bits (the coder decodes 64-bit values, truncation by `% 2^32` / `UInt8.ofNat`). -/
def lz78DecLoop (c : UCoder) : Nat → List Bool → List Nat → List UInt8 → Nat → Res (List UInt8)
  | 0, _, _, _, _ => .error .loop
  | fuel + 1, bits, indices, literals, fc =>
    if bits.isEmpty then .ok []
    else
      match c.dec (.range 0 fc) bits with
      | .error e => .error e
      | .ok (index, bits) =>
        match c.dec .literal bits with
        | .error e => .error e
        | .ok (chr, bits) =>
          let index := index % 2 ^ 32
          let indices := indices ++ [index]
          let literals := literals ++ [UInt8.ofNat chr]
          match lz78Chain indices literals (indices.length + 1) index (UInt8.ofNat chr) [] with
          | .error e => .error e
          | .ok s =>
            match lz78DecLoop c fuel bits indices literals (fc + 1) with
            | .error e => .error e
            | .ok t => .ok (s ++ t)

/-- compressors/LZ78Compressor.hpp:142-157 `decompress` -/
def lz78Decompress (c : UCoder) (bytes : List UInt8) : Res (List UInt8) :=
  let bits := bitsOf bytes
  lz78DecLoop c (bits.length + 1) bits [] [] 0

end Tdc
