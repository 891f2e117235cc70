import Verif.Model.Trie

/-!
# util/hash/rabinkarphash.h: `KarpRabinHash` (hash_roll "rk")

The table of 256 random keys (util/hash/characterhash.h:52-67) is an arbitrary function `key`; values are natural numbers below `2^64` and `HASHMASK` is
`2^64 - 1`.
-/

namespace Tdc.Rolling

/-- util/hash/rabinkarphash.h:88 `B` -/
def rkB : Nat := 37

/-- util/hash/characterhash.h:37-43 `maskfnc` (for `bits` from 1 to 64) -/
def maskfnc (bits : Nat) : Nat := 2 ^ (bits - 1) ^^^ (2 ^ (bits - 1) - 1)

/-- util/hash/rabinkarphash.h:70-72 `eat` -/
def rkEat (key : UInt8 → Nat) (h : Nat) (c : UInt8) : Nat := (rkB * h + key c) % 2 ^ 64 &&& maskfnc 64

/-- util/hash/rabinkarphash.h:43-51: `BtoN` after the constructor's loop of `n` rounds -/
def rkBtoN : Nat → Nat
  | 0 => 1
  | n + 1 => rkBtoN n * rkB % 2 ^ 64 &&& maskfnc 64

/-- util/hash/rabinkarphash.h:76-78 `update`, for windows of `n` characters -/
def rkUpdate (key : UInt8 → Nat) (n h : Nat) (out inn : UInt8) : Nat :=
  ((rkB * h + key inn) % 2 ^ 64 + 2 ^ 64 - rkBtoN n * key out % 2 ^ 64) % 2 ^ 64 &&& maskfnc 64

/-- util/hash/rabinkarphash.h:58-60: the inner loop of `hash` -/
def rkPow : Nat → Nat → Nat
  | 0, x => x
  | j + 1, x => rkPow j (x * rkB % 2 ^ 64 &&& maskfnc 64)

/-- util/hash/rabinkarphash.h:54-66 `hash`: the rest of the container, and the sum so far -/
def rkHash (key : UInt8 → Nat) : List UInt8 → Nat → Nat
  | [], answer => answer
  | c :: rest, answer =>
    let x := rkPow rest.length 1
    let x := x * key c % 2 ^ 64 &&& maskfnc 64
    rkHash key rest ((answer + x) % 2 ^ 64 &&& maskfnc 64)

/-- util/hash/rabinkarphash.h:28-92: the hash as `RollingTrie` uses it (`clear`, `+=`, `()`) -/
def rk (key : UInt8 → Nat) : Roller where
  S := Nat
  κ := Nat
  init := 0
  step := rkEat key
  out s := s

end Tdc.Rolling
