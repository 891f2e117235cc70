import Verif.Model.TextDS

/-!
# ds/bwt.hpp, compressors/BWTCompressor.hpp
-/

namespace Tdc

/-- ds/bwt.hpp:19-22 `bwt(text, sa, i)` for a suffix array entry `s = sa[i]`; out of bounds is undefined -/
def bwtAt (text : List UInt8) (sa : List Nat) (s : Nat) : Res UInt8 :=
  if s = 0 then vget text (sa.length - 1) else vget text (s - 1)

/-- compressors/BWTCompressor.hpp:47-49: the output loop -/
def bwtLoop (text : List UInt8) (sa : List Nat) : List Nat → Res (List UInt8)
  | [] => .ok []
  | s :: rest =>
    match bwtAt text sa s with
    | .error e => .error e
    | .ok c =>
      match bwtLoop text sa rest with
      | .error e => .error e
      | .ok cs => .ok (c :: cs)

/-- compressors/BWTCompressor.hpp:30-50 `compress` given the suffix array -/
def bwtCompress (text : List UInt8) (sa : List Nat) : Res (List UInt8) := bwtLoop text sa sa

/-- ds/bwt.hpp:32-37: count the characters; entry `c + 1` counts the occurrences of `c`, occurrences of 255 are not counted.
The array `C` of 256 entries is a function. -/
def bwtCount : List UInt8 → (Nat → Nat) → Nat → Nat
  | [], C => C
  | c :: cs, C => bwtCount cs (if c.toNat ≠ 255 then fun j => if j = c.toNat + 1 then C j + 1 else C j else C)

/-- ds/bwt.hpp:38-41: `for(i = 1; i < ULITERAL_MAX; ++i) C[i] += C[i-1]`, `k` rounds to go from `i` -/
def bwtAcc : Nat → Nat → (Nat → Nat) → Nat → Nat
  | 0, _, C => C
  | k + 1, i, C => bwtAcc k (i + 1) (fun j => if j = i then C i + C (i - 1) else C j)

/-- ds/bwt.hpp:47-51: the LF values -/
def bwtLFLoop : List UInt8 → (Nat → Nat) → List Nat
  | [], _ => []
  | c :: cs, C => C c.toNat :: bwtLFLoop cs (fun j => if j = c.toNat then C j + 1 else C j)

/-- ds/bwt.hpp:28-67 `compute_LF`; the loop runs for `i = 1, …, 254` -/
def bwtLF (bwt : List UInt8) : List Nat := bwtLFLoop bwt (bwtAcc 254 1 (bwtCount bwt fun _ => 0))

/-- ds/bwt.hpp:85-88: fill the string from its end; `k` rounds to go -/
def bwtDecLoop (bwt : List UInt8) (LF : List Nat) : Nat → Nat → List UInt8 → Res (List UInt8)
  | 0, _, acc => .ok acc
  | k + 1, i, acc =>
    match vget bwt i, vget LF i with
    | .ok c, .ok i' => bwtDecLoop bwt LF k i' (c :: acc)
    | _, _ => .error .ub

/-- ds/bwt.hpp:74-97 `decode_bwt` -/
def decodeBwt (bwt : List UInt8) : Res (List UInt8) :=
  if bwt.length ≤ 1 then .ok [] else bwtDecLoop bwt (bwtLF bwt) (bwt.length - 1) 0 []

/-- compressors/BWTCompressor.hpp:52-70 `decompress` -/
def bwtDecompress (bwt : List UInt8) : Res (List UInt8) :=
  match decodeBwt bwt with
  | .error e => .error e
  | .ok s => .ok (if s.isEmpty then [] else s ++ [0])

end Tdc
