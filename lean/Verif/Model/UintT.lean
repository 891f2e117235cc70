import Verif.Model.Basic

/-!
# `uint_t<N>`: integers of arbitrary bit width

Sources: `include/tudocomp/ds/uint_t.hpp` and `include/tudocomp/util/IntegerBase.hpp`.

A `uint_t<N>` object with `N ≥ 2` is a bit field `uint64_t m_data : N`; the model keeps the value of that field, a natural number
below `2^N`.  `uint_t<1>` is `bool` (`uint_t.hpp:153-166`) and is modelled separately at the end.

Built-in C++ types are represented by their width in bits (for the unsigned ones, in which all computations modelled here take
place).  Not modelled: the operators with a *signed 64 bit* (`long`, `long long`) or `unsigned long long` operand: their binary forms
compute in that operand type, and their compound assignments do not compile (the call of `assign` in `IntegerBase.hpp:225-243` is
ambiguous between `uint32_t` and `uint64_t`).
-/

namespace Tdc
namespace UintT

/-- `SelfMaxBit` (uint_t.hpp:28-47): `uint32_t` for `N ≤ 32`, else `uint64_t`. -/
def maxBit (N : Nat) : Nat := if N ≤ 32 then 32 else 64

/-- Conversion of an integer to an unsigned type of `w` bits (C++ [conv.integral]). -/
def toU (w : Nat) (i : Int) : Nat := (i % (2 ^ w : Nat)).toNat

/-- Storing an unsigned value in the bit field: `self.m_data = v` (uint_t.hpp:18-21); also every converting constructor and assignment
operator (uint_t.hpp:80-127), whose argument is first converted to the 64 bit type of the bit field. -/
def store (N : Nat) (v : Nat) : Nat := v % 2 ^ N

/-- `uint_impl_t(i)` and `operator=(i)` for an argument of any built-in integer type (uint_t.hpp:80-127). -/
def ofInt (N : Nat) (i : Int) : Nat := store N (toU 64 i)

/-- The second operand of an operator. -/
inductive Operand where
  /-- another `uint_t<N>` with this value (`IntegerBaseWithSelf`) -/
  | self (v : Nat)
  /-- a `char`, `short` or `int` of any signedness (`IntegerBaseWith32`) -/
  | o32 (i : Int)
  /-- an `unsigned long` (`IntegerBaseWith64`) -/
  | o64 (v : Nat)
deriving DecidableEq

/-- The values an operand of each kind can take. -/
def Operand.Valid (N : Nat) : Operand → Prop
  | .self v => v < 2 ^ N
  | .o32 i => -2 ^ 31 ≤ i ∧ i < 2 ^ 32
  | .o64 v => v < 2 ^ 64

/-- The width of the type in which `x ∘ y` is computed (`IntegerBase.hpp:23-27, 94-98, 152-168`: `SelfMaxBit`, `SelfMaxBit`,
`Other`), by the usual arithmetic conversions. -/
def Operand.width (N : Nat) : Operand → Nat
  | .self _ => maxBit N
  | .o32 _ => maxBit N
  | .o64 _ => 64

/-- The operand converted to that type. -/
def Operand.conv (N : Nat) : Operand → Nat
  | .self v => v
  | .o32 i => toU (maxBit N) i
  | .o64 v => v

/-- The binary operators. -/
inductive Op where
  | add | sub | mul | div | mod | and | or | xor | shl | shr
deriving DecidableEq

/-- The built-in operator on the unsigned type of `w` bits.  Division by zero is undefined; so is a shift by at least the width. -/
def opU (w : Nat) : Op → Nat → Nat → Res Nat
  | .add, a, b => .ok ((a + b) % 2 ^ w)
  | .sub, a, b => .ok ((a + (2 ^ w - b)) % 2 ^ w)
  | .mul, a, b => .ok (a * b % 2 ^ w)
  | .div, a, b => if b = 0 then .error .ub else .ok (a / b)
  | .mod, a, b => if b = 0 then .error .ub else .ok (a % b)
  | .and, a, b => .ok (a &&& b)
  | .or, a, b => .ok (a ||| b)
  | .xor, a, b => .ok (a ^^^ b)
  | .shl, a, b => if w ≤ b then .error .ub else .ok (a <<< b % 2 ^ w)
  | .shr, a, b => if w ≤ b then .error .ub else .ok (a >>> b)

/-- `x ∘ y` as an expression (IntegerBase.hpp:32-60, 103-131, 152-162): the value, of the built-in type of `y.width N` bits, *not*
reduced modulo `2^N`.
For a negative `int` shift count the C++ operator is undefined; the conversion below makes it a count of at least the width, which
is undefined in `opU` as well. -/
def binop (N : Nat) (o : Op) (x : Nat) (y : Operand) : Res Nat := opU (y.width N) o x (y.conv N)

/-- `x ∘= y` (IntegerBase.hpp:207-216, 232-241, 260-264, 271-275): assigns the result of the expression to the bit field. -/
def assignOp (N : Nat) (o : Op) (x : Nat) (y : Operand) : Res Nat :=
  match binop N o x y with
  | .ok v => .ok (store N v)
  | .error e => .error e

/-- `++x`, `x++` (IntegerBase.hpp:266, 268). -/
def incr (N : Nat) (x : Nat) : Res Nat := assignOp N .add x (.o32 1)
/-- `--x`, `x--` (IntegerBase.hpp:267, 269). -/
def decr (N : Nat) (x : Nat) : Res Nat := assignOp N .sub x (.o32 1)
/-- `~x` (IntegerBase.hpp:160). -/
def compl (N : Nat) (x : Nat) : Nat := 2 ^ maxBit N - 1 - x

/-- The comparison operators (IntegerBase.hpp:62-78, 133-149, 163-168), which compare in the same types. -/
def ltOp (N : Nat) (x : Nat) (y : Operand) : Bool := decide (x < y.conv N)
/-- `y < x` with the `uint_t` on the right. -/
def gtOp (N : Nat) (x : Nat) (y : Operand) : Bool := decide (y.conv N < x)
/-- `x == y`. -/
def eqOp (N : Nat) (x : Nat) (y : Operand) : Bool := decide (x = y.conv N)

/-! ### Programs over `uint_t<N>` variables -/

/-- Right hand sides: trees of `+`, `-`, `*`, `&`, `|`, `^`, `~`-free expressions whose leaves are `uint_t<N>` variables and
`unsigned long` values, each subexpression being computed in the built-in type C++ gives it. -/
inductive Expr where
  | var (i : Nat)
  | lit (v : Nat)
  | bin (o : Op) (a b : Expr)

/-- The width of the type of an expression: a variable converts to `SelfMaxBit` (cast_for_op), an `unsigned long` has 64 bits and
a binary operation is computed in the wider of its operand types (C++ usual arithmetic conversions; for two variables, or a variable
and an `unsigned long`, these are the overloads of IntegerBase.hpp). -/
def Expr.width (N : Nat) : Expr → Nat
  | .var _ => maxBit N
  | .lit _ => 64
  | .bin _ a b => max (a.width N) (b.width N)

/-- The value of an expression. -/
def Expr.eval (N : Nat) (env : Nat → Nat) : Expr → Res Nat
  | .var i => .ok (env i)
  | .lit v => .ok v
  | .bin o a b =>
    match a.eval N env with
    | .error e => .error e
    | .ok x =>
      match b.eval N env with
      | .error e => .error e
      | .ok y => opU (max (a.width N) (b.width N)) o x y

/-- Statements: assignment of an expression, of a built-in integer, compound assignment by an operand or by another variable,
increment and decrement. -/
inductive Stmt where
  | assign (i : Nat) (e : Expr)
  | const (i : Nat) (c : Int)
  | opAssign (i : Nat) (o : Op) (y : Operand)
  | opAssignVar (i : Nat) (o : Op) (j : Nat)
  | inc (i : Nat)
  | dec (i : Nat)

/-- Replaces the value of variable `i`. -/
def upd (env : Nat → Nat) (i v : Nat) : Nat → Nat := fun j => if j = i then v else env j

/-- One statement. -/
def Stmt.exec (N : Nat) (env : Nat → Nat) : Stmt → Res (Nat → Nat)
  | .assign i e => (e.eval N env).map fun v => upd env i (store N v)
  | .const i c => .ok (upd env i (ofInt N c))
  | .opAssign i o y => (assignOp N o (env i) y).map (upd env i)
  | .opAssignVar i o j => (assignOp N o (env i) (.self (env j))).map (upd env i)
  | .inc i => (incr N (env i)).map (upd env i)
  | .dec i => (decr N (env i)).map (upd env i)

/-- A straight line program (one execution of any program over these variables is one). -/
def exec (N : Nat) : List Stmt → (Nat → Nat) → Res (Nat → Nat)
  | [], env => .ok env
  | s :: ss, env =>
    match s.exec N env with
    | .error e => .error e
    | .ok env' => exec N ss env'

/-! ### `std::numeric_limits<uint_t<N>>::max()` and `uint_t<1>` -/

/-- Rounding of a natural number to an IEEE double (53 bit significand, round to nearest, ties to even); exponents are unbounded
here, which is no restriction below `2^1024`. -/
def roundDouble (n : Nat) : Nat :=
  if n < 2 ^ 53 then n else
    let s := Nat.log2 n - 52
    let q := n / 2 ^ s
    let r := n % 2 ^ s
    (if 2 ^ (s - 1) < r ∨ (r = 2 ^ (s - 1) ∧ q % 2 = 1) then q + 1 else q) * 2 ^ s

/-- `max()` = `uint64_t(std::pow(2, N) - 1)` stored in a `uint_t<N>` (uint_t.hpp:235).  The difference of the double `2^N` (exact) and
`1` is rounded; converting a double of `2^64` or more to `uint64_t` is undefined. -/
def limitsMax (N : Nat) : Res Nat :=
  let d := roundDouble (2 ^ N - 1)
  if 2 ^ 64 ≤ d then .error .ub else .ok (store N d)

/-- `uint_t<1>` is `bool` (uint_t.hpp:157-166): assigning an integer gives `true` for every value but zero. -/
def ofIntBool (i : Int) : Nat := if i = 0 then 0 else 1

end UintT
end Tdc
