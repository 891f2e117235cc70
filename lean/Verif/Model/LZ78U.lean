import Verif.Model.Trie
import Verif.Model.Huffman

/-!
# compressors/LZ78UCompressor.hpp, compressors/lz78u/{StreamingStrategy,BufferingStrategy}.hpp

The suffix tree (lz78u/SuffixTree.hpp over `sdsl::cst_sada`) is represented by its definition: the internal nodes are the substrings
that are followed by at least two different characters (and the root), and the ancestors of the leaf of suffix `pos` are the prefixes of
that suffix among them. A node is identified with its path label; `nid` numbers the internal nodes, so the array `R` is a function on
labels. The text ends with the null byte (input restriction, LZ78UCompressor.hpp:114).
-/

namespace Tdc
namespace U78

/-- the characters that follow the occurrences of `w` -/
def nexts (T w : List UInt8) : List UInt8 := (List.range T.length).filterMap fun i => if w.isPrefixOf (T.drop i) then T[i + w.length]? else none

/-- `w` is the label of an internal node -/
def branching (T w : List UInt8) : Bool := (nexts T w).any fun c => (nexts T w).any fun d => c != d

/-- the first `d` characters of suffix `pos` -/
def label (T : List UInt8) (pos d : Nat) : List UInt8 := (T.drop pos).take d

/-- string depths of the proper ancestors of leaf `pos`, root first (SuffixTree.hpp `level_anc`, `parent`, `str_depth`) -/
def depths (T : List UInt8) (pos : Nat) : List Nat := (List.range (T.length - pos)).filter fun d => d == 0 || branching T (label T pos d)

/-- what the strategies are asked to encode (StreamingStrategy.hpp:33-55) -/
inductive Tok where
  | ref (v : Nat) (r : Rng)
  | sep (b : Bool)
  | chr (c : UInt8)
  deriving DecidableEq, Repr

/-- LZ78UCompressor.hpp:181-187: climb down as long as the nodes have factors, below them a node without or the leaf -/
def climb (T : List UInt8) (R : List UInt8 → Nat) (pos : Nat) : Nat → List Nat → Nat
  | parent, [] => parent
  | parent, d :: ds => if R (label T pos d) ≠ 0 then climb T R pos d ds else parent

/-- LZ78UCompressor.hpp:256-264: the same in the main loop, `nid` of the leaf is undefined -/
def climb2 (T : List UInt8) (R : List UInt8 → Nat) (pos : Nat) : Nat → List Nat → Res (Nat × Nat)
  | _, [] => .error .ub
  | parent, d :: ds => if R (label T pos d) ≠ 0 then climb2 T R pos d ds else .ok (parent, d)

/-- LZ78UCompressor.hpp:160 `while(T[end-1] == 0) --end;` -/
def strip (T : List UInt8) : Nat → Res Nat
  | 0 => .error .ub
  | e + 1 => (vget T e).bind fun c => if c = 0 then strip T e else .ok (e + 1)

/-- `T.slice(b, e)` -/
def slice (T : List UInt8) (b e : Nat) : List UInt8 := (T.drop b).take (e - b)

/-- subtraction in `len_t` (irreducible for the prover's sake only) -/
@[irreducible] def sub32 (a b : Nat) : Nat := (a + 2 ^ 32 - b) % 2 ^ 32

/-- `Range(0, LEN_MAX)` (Range.hpp `len_r`) -/
def lenR : Rng := .range 0 (2 ^ 32 - 1)

/-- LZ78UCompressor.hpp:174-212: the factors of a long edge label -/
def subLoop (T : List UInt8) (R : List UInt8 → Nat) (thr cnt e : Nat) : Nat → Nat → Res (List Tok)
  | 0, _ => .error .loop
  | fuel + 1, pos =>
    if pos < e then
      let depth := climb T R pos 0 (depths T pos).tail
      if depth < thr then
        (vget T pos).bind fun c => (subLoop T R thr cnt e fuel (pos + 1)).bind fun r => .ok (.sep false :: .chr c :: r)
      else
        (subLoop T R thr cnt e fuel (pos + depth)).bind fun r =>
          .ok (.sep true :: .ref (R (label T pos depth)) (.range 0 cnt) ::
            ((if pos + depth > e then [.sep true, .ref 0 (.range 0 cnt), .ref (pos + depth - e) lenR] else []) ++ r))
    else .ok []

/-- LZ78UCompressor.hpp:158-229 the lambda `output` -/
def output (T : List UInt8) (R : List UInt8 → Nat) (thr cnt fuel b e0 ref : Nat) : Res (List Tok) :=
  (strip T e0).bind fun e =>
    if sub32 e b ≥ thr then
      (subLoop T R thr cnt e fuel b).bind fun r => .ok (.ref ref (.range 0 cnt) :: .sep false :: (r ++ [.sep false, .chr 0]))
    else .ok (.ref ref (.range 0 cnt) :: .sep true :: ((slice T b e).map .chr ++ [.chr 0]))

/-- LZ78UCompressor.hpp:134-137: the width of the entries of `R` -/
def width (T : List UInt8) : Nat := bitsFor (T.length * bitsFor T.eraseDups.length / bitsFor T.length)

/-- LZ78UCompressor.hpp:279 `R[ST.nid(node)] = ++z` (`sdsl::int_vector` keeps the low bits) -/
def assign (R : List UInt8 → Nat) (w : Nat) (l : List UInt8) (z : Nat) : List UInt8 → Nat := fun k => if k = l then z % 2 ^ w else R k

/-- LZ78UCompressor.hpp:234-284: the main loop; the result lists the calls for each factor -/
def mainLoop (T : List UInt8) (thr w sf : Nat) : Nat → Nat → (List UInt8 → Nat) → Nat → Res (List (List Tok))
  | 0, _, _, _ => .error .loop
  | fuel + 1, pos, R, z =>
    if pos < T.length - 1 then
      let pd := (depths T pos).getLastD 0
      if pd = 0 ∨ R (label T pos pd) ≠ 0 then
        (output T R thr z sf (pos + pd) (pos + pd + 1) (R (label T pos pd))).bind fun ts =>
          (mainLoop T thr w sf fuel (pos + pd + 1) R (z + 1)).bind fun r => .ok (ts :: r)
      else
        (climb2 T R pos 0 (depths T pos).tail).bind fun p =>
          (output T R thr z sf (pos + p.1) (pos + p.2) (R (label T pos p.1))).bind fun ts =>
            (mainLoop T thr w sf fuel (pos + p.2) (assign R w (label T pos p.2) (z + 1)) (z + 1)).bind fun r => .ok (ts :: r)
    else .ok []

/-- LZ78UCompressor.hpp:118-285 `compress`, `fuel` bounds the rounds of each loop -/
def factors (fuel thr : Nat) (T : List UInt8) : Res (List (List Tok)) := mainLoop T thr (width T) fuel fuel 0 (fun _ => 0) 0

/-- StreamingStrategy.hpp:33-55 -/
def enc (c1 c2 : UCoder) : Tok → List Bool
  | .ref v r => c1.enc r v
  | .sep b => [b]
  | .chr c => c2.enc .literal c.toNat

/-- `compress` with the streaming strategy: `c1` codes references, `c2` characters; a buffering strategy with coders that need no
literals writes the same -/
def compress (c1 c2 : UCoder) (fuel thr : Nat) (T : List UInt8) : Res (List UInt8) :=
  (factors fuel thr T).bind fun fs => .ok (BitO.toBytes (fs.flatten.flatMap (enc c1 c2)))

/-- BufferingStrategy.hpp:38-61 `m_chars` -/
def chars (ts : List Tok) : List UInt8 := ts.filterMap fun | .chr c => some c | _ => none

/-- BufferingStrategy.hpp:63-111: the destructor, with the Huffman coder for the characters -/
def encHuff (c1 : UCoder) (ls : List UInt8) (m : Huff.Mode) : List Tok → Res (List Bool)
  | [] => .ok []
  | t :: ts =>
    (match t with
      | .ref v r => .ok (c1.enc r v)
      | .sep b => .ok [b]
      | .chr c => Huff.encode ls m .literal c.toNat : Res (List Bool)).bind fun bs => (encHuff c1 ls m ts).bind fun r => .ok (bs ++ r)

/-- `compress` with the buffering strategy and the Huffman coder -/
def compressHuff (std : StdLib) (c1 : UCoder) (fuel thr : Nat) (T : List UInt8) : Res (List UInt8) :=
  (factors fuel thr T).bind fun fs => (Huff.encoder std (chars fs.flatten)).bind fun m =>
    (encHuff c1 (chars fs.flatten) m.1 fs.flatten).bind fun bs => .ok (BitO.toBytes (m.2 ++ bs))

/-! ## decompress -/

/-- factor `i` of the decoder, counted from 1 (LZ78UCompressor.hpp:32-52 `ref_at`, `str_at`) -/
def factorAt (D : List (Nat × List UInt8)) (i : Nat) : Res (Nat × List UInt8) := if i = 0 then .error .ub else vget D (i - 1)

/-- LZ78UCompressor.hpp:67-83: collect the labels backwards -/
def walkBack (D : List (Nat × List UInt8)) : Nat → List UInt8 → Nat → List UInt8 → Res (List UInt8)
  | 0, _, _, _ => .error .loop
  | fuel + 1, buf, i, lits =>
    if i = 0 then .ok (buf ++ lits.reverse) else (factorAt D i).bind fun p => walkBack D fuel (buf ++ lits.reverse) p.1 p.2

/-- LZ78UCompressor.hpp:55-89 `Decompressor::decompress`: the table and the string written (`factorid_t` has 32 bits) -/
def decFactor (D : List (Nat × List UInt8)) (ref : Nat) (lits : List UInt8) : Res (List (Nat × List UInt8) × List UInt8) :=
  (walkBack (D ++ [(ref % 2 ^ 32, lits)]) (D.length + 2) [] (ref % 2 ^ 32) lits).bind fun buf => .ok (D ++ [(ref % 2 ^ 32, lits)], buf.reverse)

/-- LZ78UCompressor.hpp:343-356: append the string of a factor; the part after `old_end` is collected backwards -/
def pushRef (D : List (Nat × List UInt8)) : Nat → List UInt8 → Nat → Res (List UInt8)
  | 0, _, _ => .error .loop
  | fuel + 1, part, i =>
    (factorAt D (i % 2 ^ 32)).bind fun p => if p.1 = 0 then .ok (part ++ p.2.reverse) else pushRef D fuel (part ++ p.2.reverse) p.1

/-- `pop_back` `k` times -/
def popN (buf : List UInt8) (k : Nat) : Res (List UInt8) := if k ≤ buf.length then .ok (buf.take (buf.length - k)) else .error .ub

/-- LZ78UCompressor.hpp:317-364: one round of the inner loop -/
def decSubStep (c1 c2 : UCoder) (D : List (Nat × List UInt8)) (cnt : Nat) (buf : List UInt8) (bs : List Bool) : Res (List UInt8 × List Bool) :=
  if (rdBit bs).1 = false then (c2.dec .literal (rdBit bs).2).bind fun v => .ok (buf ++ [UInt8.ofNat v.1], v.2)
  else
    (c1.dec (.range 0 cnt) (rdBit bs).2).bind fun r =>
      if r.1 = 0 then (c1.dec lenR r.2).bind fun cut => (popN buf cut.1).bind fun b => .ok (b, cut.2)
      else (pushRef D (D.length + 1) [] r.1).bind fun part => .ok (buf ++ part.reverse, r.2)

/-- LZ78UCompressor.hpp:317-370: the inner loop; each round reads a bit, `fuel` bounds the rounds -/
def decSub (c1 c2 : UCoder) (D : List (Nat × List UInt8)) (cnt : Nat) : Nat → List UInt8 → List Bool → Res (List UInt8 × List Bool)
  | 0, _, _ => .error .loop
  | fuel + 1, buf, bs =>
    (decSubStep c1 c2 D cnt buf bs).bind fun s =>
      if s.1.getLast? = some 0 then .ok (s.1.dropLast, s.2) else decSub c1 c2 D cnt fuel s.1 s.2

/-- StreamingStrategy.hpp:85-95 `decode_str` -/
def decStr (c2 : UCoder) : Nat → List UInt8 → List Bool → Res (List UInt8 × List Bool)
  | 0, _, _ => .error .loop
  | fuel + 1, buf, bs =>
    (c2.dec .literal bs).bind fun v => if UInt8.ofNat v.1 = 0 then .ok (buf, v.2) else decStr c2 fuel (buf ++ [UInt8.ofNat v.1]) v.2

/-- LZ78UCompressor.hpp:308-377: the label of the edge, plain or factorized -/
def decLabel (c1 c2 : UCoder) (D : List (Nat × List UInt8)) (fuel : Nat) (b : Bool × List Bool) : Res (List UInt8 × List Bool) :=
  if b.1 = true then decStr c2 fuel [] b.2 else decSub c1 c2 D D.length fuel [] b.2

/-- LZ78UCompressor.hpp:303-388: the loop over the factors -/
def decLoop (c1 c2 : UCoder) : Nat → List (Nat × List UInt8) → List Bool → Res (List UInt8)
  | 0, _, _ => .error .loop
  | fuel + 1, D, bs =>
    if bs.isEmpty then .ok []
    else
      (c1.dec (.range 0 D.length) bs).bind fun ref =>
        (decLabel c1 c2 D (bs.length + 1) (rdBit ref.2)).bind fun s =>
          (decFactor D ref.1 s.1).bind fun o => (decLoop c1 c2 fuel o.1 s.2).bind fun r => .ok (o.2 ++ r)

/-- LZ78UCompressor.hpp:287-396 `decompress` from the bits after the header of the coders -/
def decBits (c1 c2 : UCoder) (bs : List Bool) : Res (List UInt8) := (decLoop c1 c2 (bs.length + 1) [] bs).bind fun r => .ok (r ++ [0])

/-- LZ78UCompressor.hpp:287-396 `decompress` -/
def decompress (c1 c2 : UCoder) (bytes : List UInt8) : Res (List UInt8) := decBits c1 c2 (bitsOf bytes)

/-- the same with the Huffman coder for the characters; the decoder of the references reads no header -/
def decompressHuff (c1 : UCoder) (bytes : List UInt8) : Res (List UInt8) :=
  (Huff.decoder (bitsOf bytes)).bind fun d => decBits c1 (Huff.decCoder d.1) d.2

end U78
end Tdc
