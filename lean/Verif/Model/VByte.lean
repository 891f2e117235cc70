import Verif.Model.Basic

/-! # Model of `util/vbyte.hpp` -/

namespace Tdc

/-- util/vbyte.hpp:29-37 `write_vbyte`: 7 bits per byte, least significant group first, the high bit set on
all but the last byte. -/
def writeVByte (v : Nat) : List UInt8 :=
  let byte := v % 128                      -- `v & ((1<<7)-1)`
  if _h : v / 128 > 0 then                 -- `v >>= 7; if(v > 0) byte |= 1<<7`
    UInt8.ofNat (byte + 128) :: writeVByte (v / 128)
  else [UInt8.ofNat byte]
  decreasing_by omega

/-- util/vbyte.hpp:10-22 `read_vbyte<int_t>`, `w` = width of `int_t`, `k` = `which_byte`
(a `uint8_t`; a shift by 64 or more bits is undefined).  When the stream ends inside a number, `is.get()` delivers EOF (`0xFF`) once,
which is shifted like a byte, and the code returns 0 (the `DCHECK` of line 20 does nothing in a release build). -/
def readVByteAux (w : Nat) (ret k : Nat) : List UInt8 → Res (Nat × List UInt8)
  | [] => if 7 * k ≥ 64 then .error .ub else .ok (0, [])
  | byte :: rest =>
    if 7 * k ≥ 64 then .error .ub
    else
      let ret := ret ||| (((byte.toNat &&& 127) <<< (7 * k)) % 2 ^ w)
      if byte.toNat &&& 128 = 0 then .ok (ret, rest) else readVByteAux w ret (k + 1) rest

/-- util/vbyte.hpp:10-22 `read_vbyte` -/
def readVByte (w : Nat) (bs : List UInt8) : Res (Nat × List UInt8) := readVByteAux w 0 0 bs

end Tdc
