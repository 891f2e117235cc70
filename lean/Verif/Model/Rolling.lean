import Verif.Model.Trie

/-!
# The rolling hash functions of `RollingTrie`

util/Hash.hpp:307-352.  `key_type` is `uint64_t`: values are natural numbers, reduced modulo `2^64`.
-/

namespace Tdc.Rolling

/-- The conversion of a `char` (signed, 8 bits) to `uint64_t` (util/Hash.hpp:320, 344). -/
def sext (c : UInt8) : Nat := if c.toNat < 128 then c.toNat else 2 ^ 64 - 256 + c.toNat

/-- util/Hash.hpp:307-330 `ZBackupRollingHash`: the state is (`m_val`, `m_len`).  `sizeof(char) * sizeof(key_type)` is 8;
`% (-1)` is a reduction modulo `2^64 - 1`. -/
def zbackup : Roller where
  S := Nat × Nat
  κ := Nat
  init := (0, 0)                                                                              -- :311-312, 326-329
  step s c := ((s.1 * 2 ^ 8 % 2 ^ 64 + s.1 + sext c) % 2 ^ 64, (s.2 + s.2 * 2 ^ 8 % 2 ^ 64) % 2 ^ 64)   -- :319-322
  out s := (s.1 + s.2) % 2 ^ 64 % (2 ^ 64 - 1)                                                -- :323-325

/-- util/Hash.hpp:332-352 `WordpackRollingHash`: the state is `m_val`. -/
def wordpack : Roller where
  S := Nat
  κ := Nat
  init := 0                                                                                   -- :336, 349-351
  step s c := (s + s * 2 ^ 8 % 2 ^ 64 + sext c) % 2 ^ 64                                      -- :343-345
  out s := s                                                                                  -- :346-348

end Tdc.Rolling
