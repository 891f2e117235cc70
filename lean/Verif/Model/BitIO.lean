import Verif.Model.Basic

/-!
# Model of `io/BitOStream.hpp` and `io/BitIStream.hpp`
-/

namespace Tdc

/-- The eight bits of a byte, most significant first. (Vocabulary, not code.) -/
def byteBits (b : UInt8) : List Bool :=
  [b.toNat.testBit 7, b.toNat.testBit 6, b.toNat.testBit 5, b.toNat.testBit 4,
   b.toNat.testBit 3, b.toNat.testBit 2, b.toNat.testBit 1, b.toNat.testBit 0]

/-! ## BitOStream -/

/-- io/BitOStream.hpp:17-22 (members). `out` is what `m_stream.put` has received so far.
`m_cursor` is an `int` that is `-1` only between `--m_cursor` and the `reset()` that always follows
(see `writeBit`), hence `Nat`. -/
structure BitO where
  out : List UInt8
  dirty : Bool
  next : UInt8
  cursor : Nat
deriving DecidableEq, Repr

namespace BitO

/-- io/BitOStream.hpp:24-30 `reset` -/
def reset (s : BitO) : BitO := { s with next := 0, cursor := 7, dirty := false }

/-- io/BitOStream.hpp:32-37 `write_next` -/
def writeNext (s : BitO) : BitO :=
  if s.dirty then reset { s with out := s.out ++ [s.next] } else s

/-- io/BitOStream.hpp:43-45 constructor -/
def init : BitO := reset ⟨[], false, 0, 0⟩

/-- io/BitOStream.hpp:78-87 `write_bit` -/
def writeBit (s : BitO) (set : Bool) : BitO :=
  let s := if set then { s with next := s.next ||| (1 <<< UInt8.ofNat s.cursor) } else s
  let s := { s with dirty := true }
  if s.cursor = 0 then writeNext s            -- `--m_cursor < 0`
  else { s with cursor := s.cursor - 1 }

/-- io/BitOStream.hpp:54-65 destructor -/
def finish (s : BitO) : BitO :=
  let set : UInt8 := UInt8.ofNat (7 - s.cursor)
  let s := if s.cursor ≥ 2 then { s with next := s.next ||| set }
           else { writeNext s with next := set }
  writeNext { s with dirty := true }

/-- The bytes a program leaves in the output that opens a `BitOStream`, calls `write_bit` for the
given bits, and destroys the stream. -/
def toBytes (bits : List Bool) : List UInt8 := (finish (bits.foldl writeBit init)).out

end BitO

/-! ## BitIStream -/

/-- io/BitIStream.hpp:16-24 (members). `stream` is what the underlying stream still delivers. -/
structure BitI where
  stream : List UInt8
  current : UInt8
  next : UInt8
  isFinal : Bool
  finalBits : Nat
  cursor : Nat
deriving DecidableEq, Repr

namespace BitI

/-- io/BitIStream.hpp:26-61 `read_next`. `get(c)` leaves `c` unchanged on failure, so
`m_final_bits = c` uses the byte just read; `get` followed by `unget` is a look-ahead. -/
def readNext (s : BitI) : BitI :=
  let s := { s with current := s.next, cursor := 7 }
  match s.stream with
  | c :: rest =>
    let s := { s with next := c, stream := rest }
    match rest with
    | _ :: _ => s
    | [] =>
      let s := { s with finalBits := c.toNat &&& 7 }
      if s.finalBits ≥ 6 then { s with isFinal := true, next := 0 } else s
  | [] => { s with isFinal := true, finalBits := s.current.toNat &&& 7, next := 0 }

/-- io/BitIStream.hpp:67-79 constructor -/
def «open» (bytes : List UInt8) : BitI :=
  match bytes with
  | c :: rest => readNext ⟨rest, 0, c, false, 0, 0⟩
  | [] => ⟨[], 0, 0, true, 0, 0⟩

/-- io/BitIStream.hpp:192-194 `eof` -/
def eof (s : BitI) : Bool := s.isFinal && decide ((s.cursor : Int) ≤ 7 - (s.finalBits : Int))

/-- io/BitIStream.hpp:89-107 `read_bit` -/
def readBit (s : BitI) : Bool × BitI :=
  if !s.eof then
    let bit := s.current.toNat.testBit s.cursor
    if s.cursor ≠ 0 then (bit, { s with cursor := s.cursor - 1 }) else (bit, readNext s)
  else (false, s)

/-- Call `read_bit` `n` times (vocabulary for the statements). -/
def readBits : Nat → BitI → List Bool × BitI
  | 0, s => ([], s)
  | n + 1, s =>
    let (b, s) := readBit s
    let (bs, s) := readBits n s
    (b :: bs, s)

/-- `while(!eof()) read_bit()`: all bits a reader sees (vocabulary; fuel = an upper bound on the number of
bits in the stream, proved sufficient). -/
def drainFuel : Nat → BitI → List Bool
  | 0, _ => []
  | n + 1, s => if s.eof then [] else (readBit s).1 :: drainFuel n (readBit s).2

end BitI

/-- All bits a `BitIStream` delivers for a byte string. -/
def bitsOf (bytes : List UInt8) : List Bool := (BitI.open bytes).drainFuel (8 * bytes.length)

/-! ## Integer codes written through `write_bit`

The effect of each function on a `BitOStream` is the list of bits it passes to `write_bit`. -/

/-- `__builtin_clzll` of a non-zero 64-bit value: number of leading zero bits. -/
def clz64 (x : Nat) : Nat := 63 - Nat.log2 x

/-- util.hpp:174-177 `bits_hi` -/
def bitsHi (x : Nat) : Nat := if x = 0 then 0 else 64 - clz64 x

/-- util.hpp:193-195 `bits_for` -/
def bitsFor (n : Nat) : Nat := if n = 0 then 1 else bitsHi n

/-- util.hpp:203-205 `idiv_ceil` -/
def idivCeil (a b : Nat) : Nat := a / b + (if a % b > 0 then 1 else 0)

/-- util.hpp:225-227 `bytes_for` -/
def bytesFor (n : Nat) : Nat := idivCeil (bitsFor n) 8

/-- io/BitOStream.hpp:96-101 `write_int`. (`bits` must not exceed the width of the value type, otherwise
the shift is undefined in C++; statements carry that bound.) -/
def writeInt (v : Nat) : Nat → List Bool
  | 0 => []
  | b + 1 => v.testBit b :: writeInt v b

/-- io/BitOStream.hpp:103-110 `write_unary` -/
def writeUnary : Nat → List Bool
  | 0 => [true]
  | v + 1 => false :: writeUnary v

/-- io/BitOStream.hpp:116-119, the `do … while(v)` loop of `write_ternary` -/
def writeTernaryLoop (v : Nat) : List Bool :=
  writeInt (v % 3) 2 ++ (if _h : v / 3 = 0 then [] else writeTernaryLoop (v / 3))
  decreasing_by omega

/-- io/BitOStream.hpp:112-122 `write_ternary` -/
def writeTernary (v : Nat) : List Bool :=
  (if v ≠ 0 then writeTernaryLoop (v - 1) else []) ++ writeInt 3 2

/-- io/BitOStream.hpp:124-128 `write_elias_gamma` -/
def writeGamma (v : Nat) : List Bool := writeUnary (bitsFor v) ++ writeInt v (bitsFor v)

/-- io/BitOStream.hpp:130-134 `write_elias_delta` -/
def writeDelta (v : Nat) : List Bool := writeGamma (bitsFor v) ++ writeInt v (bitsFor v)

/-- io/BitOStream.hpp:157-163, the loop of `write_compressed_int` (`b > 0` by DCHECK; the guard makes
the definition total, with the non-termination of `b = 0` not modelled). -/
def writeCIntLoop (mask b v : Nat) : List Bool :=
  decide (v >>> b > 0) :: writeInt (v &&& mask) b ++
    (if h : v >>> b > 0 ∧ 0 < b then writeCIntLoop mask b (v >>> b) else [])
  termination_by v
  decreasing_by
    have hv : 0 < v := Nat.pos_of_ne_zero (by rintro rfl; simp at h)
    rw [Nat.shiftRight_eq_div_pow]
    exact Nat.div_lt_self hv (Nat.one_lt_two_pow (by omega))

/-- io/BitOStream.hpp:152-164 `write_compressed_int`; note `mask = (u << b) - 1` in `uint64_t`, where
`u` is the value itself (not 1). -/
def writeCInt (v b : Nat) : List Bool :=
  let mask := ((v <<< b) + (2 ^ 64 - 1)) % 2 ^ 64
  writeCIntLoop mask b v

/-! ## Integer codes read through `read_bit`

A stream is represented by the bits it still delivers; `read_bit` at the end delivers 0
(`Props/BitIO.lean` proves that this is exactly how the byte level reader behaves). -/

/-- `read_bit` on the list of remaining bits. -/
def rdBit : List Bool → Bool × List Bool
  | [] => (false, [])
  | b :: bs => (b, bs)

/-- io/BitIStream.hpp:117-124 `read_int<T>`, `w` = bit width of `T`. `acc` is `value`. -/
def rdIntAcc (w : Nat) : Nat → Nat → List Bool → Nat × List Bool
  | 0, acc, bs => (acc, bs)
  | n + 1, acc, bs => rdIntAcc w n ((acc * 2 + (rdBit bs).1.toNat) % 2 ^ w) (rdBit bs).2

/-- io/BitIStream.hpp:117-124 `read_int<T>(amount)` -/
def rdInt (w n : Nat) (bs : List Bool) : Nat × List Bool := rdIntAcc w n 0 bs

/-- io/BitIStream.hpp:126-131 `read_unary`; at the end of the stream `read_bit` is 0 forever. -/
def rdUnary : List Bool → Res (Nat × List Bool)
  | [] => .error .loop
  | true :: bs => .ok (0, bs)
  | false :: bs =>
    match rdUnary bs with
    | .error e => .error e
    | .ok (v, r) => .ok (v + 1, r)

/-- io/BitIStream.hpp:138-143: rest of the `do … while(mod != 3)` loop of `read_ternary`, after `mod` has
been read. `w` is the width of `value_t`, `b` a `size_t`.  At the end of the stream (or with one bit
left) only zeros follow, so the terminator never comes. -/
def rdTernaryLoop (w : Nat) (v b mod : Nat) : List Bool → Res (Nat × List Bool)
  | x :: y :: bs =>
    let v := (v + mod * b) % 2 ^ w
    let mod := 2 * x.toNat + y.toNat
    if mod ≠ 3 then rdTernaryLoop w v (b * 3 % 2 ^ 64) mod bs else .ok ((v + 1) % 2 ^ w, bs)
  | _ => .error .loop

/-- io/BitIStream.hpp:133-148 `read_ternary` -/
def rdTernary (w : Nat) (bs : List Bool) : Res (Nat × List Bool) :=
  let (mod, bs) := rdInt 64 2 bs
  if mod < 3 then rdTernaryLoop w 0 1 mod bs else .ok (0, bs)

/-- io/BitIStream.hpp:150-154 `read_elias_gamma` -/
def rdGamma (w : Nat) (bs : List Bool) : Res (Nat × List Bool) :=
  match rdUnary bs with
  | .error e => .error e
  | .ok (n, bs) => .ok (rdInt w n bs)

/-- io/BitIStream.hpp:156-160 `read_elias_delta` -/
def rdDelta (w : Nat) (bs : List Bool) : Res (Nat × List Bool) :=
  match rdGamma 64 bs with
  | .error e => .error e
  | .ok (n, bs) => .ok (rdInt w n bs)

/-- io/BitIStream.hpp:180-184: loop of `read_compressed_int`. `value |= block << (b*i)` on 64 bits (a shift of
64 or more is undefined). Fuel: each round with `has_next` consumes a bit. -/
def rdCIntLoop (b : Nat) : Nat → Nat → Nat → List Bool → Res (Nat × List Bool)
  | 0, _, _, _ => .error .loop
  | fuel + 1, i, value, bs =>
    let (hasNext, bs) := rdBit bs
    let (blk, bs) := rdInt 64 b bs
    if b * i ≥ 64 then .error .ub
    else
      let value := value ||| ((blk <<< (b * i)) % 2 ^ 64)
      if hasNext then rdCIntLoop b fuel (i + 1) value bs else .ok (value, bs)

/-- io/BitIStream.hpp:172-187 `read_compressed_int` -/
def rdCInt (b : Nat) (bs : List Bool) : Res (Nat × List Bool) :=
  rdCIntLoop b (bs.length + 1) 0 0 bs

end Tdc
