/-!
# Basic vocabulary of the model

`char`/`uint8_t`/`uliteral_t` of the C++ code are `UInt8`.  Where the code relies on `char` being
*signed* (x86-64 g++/clang), the definition concerned says so explicitly.
-/

namespace Tdc

/-- Abnormal outcomes of the modelled C++ code, kept apart from every normal result. -/
inductive Fault where
  /-- undefined behaviour (out-of-bounds access, over-wide shift, `front()` of an empty string …) -/
  | ub
  /-- the loop never terminates -/
  | loop
  /-- a C++ exception is thrown -/
  | throw
deriving DecidableEq, Repr

/-- Results of modelled functions that may fail. -/
abbrev Res (α : Type) := Except Fault α

/-- The value of a (signed) C++ `char` holding the given byte. -/
def schar (c : UInt8) : Int := if c.toNat < 128 then (c.toNat : Int) else (c.toNat : Int) - 256

/-- Conversion of a signed integer to `size_t` (64 bit). -/
def toSizeT (i : Int) : Nat := (i % (2 ^ 64 : Int)).toNat

end Tdc
