import Verif.Model.LZSSCoding

/-!
# compressors/lzss/{LZSSLiterals,LZSSFactors}.hpp: literals between factors; flattening
-/

namespace Tdc

/-- compressors/lzss/LZSSLiterals.hpp:14-19: `m_pos` and the factors from `m_next_factor` on -/
structure LitIter where
  pos : Nat
  next : List Factor
deriving DecidableEq, Repr

/-- compressors/lzss/LZSSLiterals.hpp:21-29 `skip_factors` -/
def skipFactors (pos : Nat) : List Factor → LitIter
  | [] => ⟨pos, []⟩
  | f :: fs => if pos = f.pos then skipFactors (pos + f.len) fs else ⟨pos, f :: fs⟩

/-- compressors/lzss/LZSSLiterals.hpp:32-39: constructor -/
def LitIter.init (fs : List Factor) : LitIter := skipFactors 0 fs

/-- compressors/lzss/LZSSLiterals.hpp:41-54: `has_next`/`next`, called until the end; every literal comes with its position. -/
def LitIter.run (text : List UInt8) : Nat → LitIter → Res (List (UInt8 × Nat))
  | 0, _ => .error .loop
  | fuel + 1, it =>
    match text[it.pos]? with
    | none => .ok []
    | some c =>
      match LitIter.run text fuel (skipFactors (it.pos + 1) it.next) with
      | .error e => .error e
      | .ok rest => .ok ((c, it.pos) :: rest)

/-- all literals of `TextLiterals(text, factors)` -/
def textLiterals (text : List UInt8) (fs : List Factor) : Res (List (UInt8 × Nat)) :=
  LitIter.run text (text.length + 1) (.init fs)

/-- compressors/lzss/LZSSFactors.hpp:92-97: `fmap[f.pos + j] = i + 1` (writing beyond the vector is undefined) -/
def fmapWrite (fmap : List Nat) (i pos : Nat) : Nat → Res (List Nat)
  | 0 => .ok fmap
  | len + 1 =>
    if pos < fmap.length then fmapWrite (fmap.set pos (i + 1)) i (pos + 1) len else .error .ub

/-- compressors/lzss/LZSSFactors.hpp:92-97: all factors -/
def fmapFill : List Factor → Nat → List Nat → Res (List Nat)
  | [], _, fmap => .ok fmap
  | f :: fs, i, fmap =>
    match fmapWrite fmap i f.pos f.len with
    | .error e => .error e
    | .ok fmap => fmapFill fs (i + 1) fmap

/-- compressors/lzss/LZSSFactors.hpp:85-90: the vector has `last.pos + last.len` entries. (Its width `bits_for(size + 1)` holds
every index.) -/
def flattenMap (fs : List Factor) : Res (List Nat) :=
  match fs.getLast? with
  | none => .ok []
  | some last => fmapFill fs 0 (List.replicate (last.pos + last.len) 0)

/-- compressors/lzss/LZSSFactors.hpp:104-122: follow the references of factor `f` while the whole source lies in one factor;
`fs` is the current state of the buffer -/
def flattenSrc (fs : List Factor) (fmap : List Nat) (len : Nat) : Nat → Nat → Res Nat
  | 0, _ => .error .loop
  | fuel + 1, src =>
    match fmap[src]? with
    | none => .ok src
    | some 0 => .ok src
    | some (k + 1) =>
      match fs[k]? with
      | none => .error .ub
      | some s =>
        -- `s.pos ≤ src` because `fmap` says so
        let d := src - s.pos
        if s.src + d + len ≤ s.src + s.len then flattenSrc fs fmap len fuel (s.src + d) else .ok src

/-- compressors/lzss/LZSSFactors.hpp:101-129: process the factors in order, updating the buffer in place -/
def flattenLoop (fmap : List Nat) (fuel : Nat) : Nat → Nat → List Factor → Res (List Factor)
  | 0, _, fs => .ok fs
  | n + 1, i, fs =>
    match fs[i]? with
    | none => .error .ub
    | some f =>
      match flattenSrc fs fmap f.len fuel f.src with
      | .error e => .error e
      | .ok src => flattenLoop fmap fuel n (i + 1) (fs.set i { f with src := src })

/-- compressors/lzss/LZSSFactors.hpp:78-131 `flatten` (factors are sorted). `fuel` bounds the length of a reference chain. -/
def flatten (fuel : Nat) (fs : List Factor) : Res (List Factor) :=
  match flattenMap fs with
  | .error e => .error e
  | .ok fmap => flattenLoop fmap fuel fs.length 0 fs

end Tdc
