import Verif.Model.Coders
import Verif.Model.Trie

/-!
# compressors/LZSSSlidingWindowCompressor.hpp
-/

namespace Tdc

/-- compressors/LZSSSlidingWindowCompressor.hpp:69-72: `j` counts equal characters of the buffer from `k` and from `ahead`;
the arguments are the buffer contents from these two indices (the second is the shorter one as `k < ahead`). -/
def matchLen : List UInt8 → List UInt8 → Nat
  | a :: as, b :: bs => if a = b then matchLen as bs + 1 else 0
  | _, _ => 0

/-- compressors/LZSSSlidingWindowCompressor.hpp:67-80: the loop over `k` for the remaining `n` values, carrying
`(k of the best match, fnum)`. -/
def winSearch (buf : List UInt8) (ahead threshold : Nat) : Nat → Nat → Nat × Nat → Nat × Nat
  | 0, _, best => best
  | n + 1, k, best =>
    let j := matchLen (buf.drop k) (buf.drop ahead)
    winSearch buf ahead threshold n (k + 1) (if j ≥ threshold ∧ j > best.2 then (k, j) else best)

/-- compressors/LZSSSlidingWindowCompressor.hpp:44-52, 62: the loop variables; `ins` is what the stream still delivers. -/
structure WinState where
  buf : List UInt8
  ahead : Nat
  off : Nat
  ins : List UInt8
  eof : Bool
deriving DecidableEq, Repr

/-- compressors/LZSSSlidingWindowCompressor.hpp:53-55: initial fill with up to `2 * window` symbols -/
def winInit (w : Nat) (text : List UInt8) : WinState := ⟨text.take (2 * w), 0, 0, text.drop (2 * w), false⟩

/-- compressors/LZSSSlidingWindowCompressor.hpp:103-115: one round of the `while(advance--)` loop -/
def winStep (w : Nat) (s : WinState) : WinState :=
  if s.ahead < w then { s with ahead := s.ahead + 1 }
  else
    match s.eof, s.ins with
    | false, c :: rest => { s with buf := s.buf.drop 1 ++ [c], off := s.off + 1, ins := rest }
    | _, _ => { s with eof := true, ahead := s.ahead + 1 }

/-- `while(advance--)` -/
def winAdvance (w : Nat) : Nat → WinState → WinState
  | 0, s => s
  | n + 1, s => winAdvance w n (winStep w s)

/-- compressors/LZSSSlidingWindowCompressor.hpp:63-117: the main loop (fuel: each round advances). -/
def winLoop (w threshold : Nat) : Nat → WinState → Res (List Token)
  | 0, _ => .error .loop
  | fuel + 1, s =>
    if s.ahead < s.buf.length then
      let lo := if s.ahead > w then s.ahead - w else 0
      let (k, fnum) := winSearch s.buf s.ahead threshold (s.ahead - lo) lo (0, 0)
      if fnum > 0 then
        let fpos := s.off + s.ahead
        match winLoop w threshold fuel (winAdvance w fnum s) with
        | .error e => .error e
        | .ok ts => .ok ((.bit, 1) :: (.range 0 fpos, fpos - (s.off + k)) :: (.range 0 w, fnum) :: ts)
      else
        match winLoop w threshold fuel (winAdvance w 1 s) with
        | .error e => .error e
        | .ok ts => .ok ((.bit, 0) :: (.literal, (s.buf.getD s.ahead 0).toNat) :: ts)
    else .ok []

/-- compressors/LZSSSlidingWindowCompressor.hpp:39-118 `compress` -/
def winCompress (c : UCoder) (w threshold : Nat) (text : List UInt8) : Res (List UInt8) :=
  match winLoop w threshold (text.length + 1) (winInit w text) with
  | .error e => .error e
  | .ok ts => .ok (BitO.toBytes (c.encAll ts))

/-- compressors/LZSSSlidingWindowCompressor.hpp:132-134: `for(i < fnum) text.push_back(text[fsrc+i])` -/
def copyFrom (out : List UInt8) (src : Nat) : Nat → Res (List UInt8)
  | 0 => .ok out
  | n + 1 =>
    match vget out src with
    | .error e => .error e
    | .ok c => copyFrom (out ++ [c]) (src + 1) n

/-- compressors/LZSSSlidingWindowCompressor.hpp:124-139. `text.size() - delta` is computed in `size_t` (a delta larger than
the text wraps around, making the access undefined). -/
def winDecLoop (c : UCoder) (w : Nat) : Nat → List Bool → List UInt8 → Res (List UInt8)
  | 0, _, _ => .error .loop
  | fuel + 1, bits, text =>
    if bits.isEmpty then .ok text
    else
      match c.dec .bit bits with
      | .error e => .error e
      | .ok (isFactor, bits) =>
        if isFactor ≠ 0 then
          match c.dec (.range 0 text.length) bits with
          | .error e => .error e
          | .ok (delta, bits) =>
            let fsrc := (text.length + 2 ^ 64 - delta) % 2 ^ 64
            match c.dec (.range 0 w) bits with
            | .error e => .error e
            | .ok (fnum, bits) =>
              match copyFrom text fsrc fnum with
              | .error e => .error e
              | .ok text => winDecLoop c w fuel bits text
        else
          match c.dec .literal bits with
          | .error e => .error e
          | .ok (v, bits) => winDecLoop c w fuel bits (text ++ [UInt8.ofNat v])

/-- compressors/LZSSSlidingWindowCompressor.hpp:120-143 `decompress` -/
def winDecompress (c : UCoder) (w : Nat) (bytes : List UInt8) : Res (List UInt8) :=
  winDecLoop c w ((bitsOf bytes).length + 1) (bitsOf bytes) []

end Tdc
