import Mathlib.Data.Nat.Notation

/-!
# The value of a string under the Karp-Rabin hash: a polynomial in 37 with the keys of the characters as coefficients
-/

namespace Tdc.Rolling

/-- `key(c_1) 37^(m-1) + ... + key(c_m)` -/
def rkVal (key : UInt8 → ℕ) : List UInt8 → ℕ
  | [] => 0
  | c :: w => key c * 37 ^ w.length + rkVal key w

end Tdc.Rolling
