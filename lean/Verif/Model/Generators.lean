import Verif.Model.Basic

/-!
# generators/*.hpp: the string generators

Strings are lists of characters.  The only resource bound modelled is the one of `std::string::reserve`, which throws `length_error`
above `max_size()`; `ms` is that (implementation defined) bound.
-/

namespace Tdc
namespace Gen

/-- `std::string::reserve(c)` (called at generators/FibonacciGenerator.hpp:23-24, ThueMorseGenerator.hpp:25): `length_error` above `max_size()`. -/
def reserve (ms c : Nat) : Res Unit := if c ≤ ms then .ok () else .error .throw

/-- generators/FibonacciGenerator.hpp:23-24: `reserve(std::pow(1.62, e))`.  The power is converted from `double` to `size_t`, undefined for
values of 2^64 and more (also for infinity, which `e = SIZE_MAX` gives).  Simplified: the power is computed exactly, not in `double`. -/
def reservePow (ms e : Nat) : Res Unit :=
  if 64 * 100 ≤ e then .error .ub else
  if 2 ^ 64 * 100 ^ e ≤ 162 ^ e then .error .ub else reserve ms (162 ^ e / 100 ^ e)

/-- generators/FibonacciGenerator.hpp:26-30: `for(size_t i = 2; i < n; ++i) { tmp = old + vold; vold = old; old = tmp; }` -/
def fibLoop (n : Nat) (i : Nat) (vold old : List Char) : List Char :=
  if i < n then fibLoop n (i + 1) old (old ++ vold) else old
termination_by n - i

/-- generators/FibonacciGenerator.hpp:16-35, `generate(n)`; `n-1` wraps for `n = 0`.  The `DCHECK`s are not part of a release build. -/
def fibonacci (ms n : Nat) : Res (List Char) :=
  if n = 1 then .ok ['b'] else
  if n = 2 then .ok ['a'] else
  (reservePow ms ((n + (2 ^ 64 - 1)) % 2 ^ 64)).bind fun _ =>
  (reservePow ms n).bind fun _ =>
  .ok (fibLoop n 2 ['b'] ['a'])

/-- generators/ThueMorseGenerator.hpp:28-30: `for(j < len) a.push_back(a[j] == '0' ? '1' : '0')` -/
def tmInner (len j : Nat) (a : List Char) : Res (List Char) :=
  if j < len then
    match a[j]? with
    | some c => tmInner len (j + 1) (a ++ [if c = '0' then '1' else '0'])
    | none => .error .ub
  else .ok a
termination_by len - j

/-- generators/ThueMorseGenerator.hpp:26-31 -/
def tmLoop (n i : Nat) (a : List Char) : Res (List Char) :=
  if i < n then (tmInner a.length 0 a).bind fun a => tmLoop n (i + 1) a else .ok a
termination_by n - i

/-- generators/ThueMorseGenerator.hpp:18-35, `generate(n)`; `CHECK_LT(n, 64)` aborts. -/
def thueMorse (ms n : Nat) : Res (List Char) :=
  if 64 ≤ n then .error .throw else
  if n = 0 then .ok ['0'] else
  (reserve ms (2 ^ n)).bind fun _ =>
  tmLoop n 1 ['0']

/-- generators/RunRichGenerator.hpp:18 -/
def rr0 : List Char := "0110101101001011010".toList
/-- generators/RunRichGenerator.hpp:19 -/
def rr1 : List Char := "0110101101001".toList
/-- generators/RunRichGenerator.hpp:20 -/
def rr2 : List Char := "01101011010010110101101".toList

/-- generators/RunRichGenerator.hpp:27-33 -/
def rrLoop (n i : Nat) (t0 t1 t2 t3 : List Char) : List Char :=
  if i < n then rrLoop n (i + 1) t1 t2 t3 (if i % 3 = 0 then t3 ++ t2 else t3 ++ t0) else t3
termination_by n - i

/-- generators/RunRichGenerator.hpp:17-36, `generate(n)` -/
def runRich (n : Nat) : List Char :=
  if n = 0 then rr0 else if n = 1 then rr1 else if n = 2 then rr2 else rrLoop n 4 rr0 rr1 rr2 (rr2 ++ rr1)

/-- `size_t` to (signed, 8 bit) `char`: the value modulo 2^8 in `[-128, 127]` (generators/RandomUniformGenerator.hpp:36). -/
def toSChar (x : Nat) : Int := if x % 256 < 128 then (x % 256 : Nat) else ((x % 256 : Nat) : Int) - 256

/-- generators/RandomUniformGenerator.hpp:38-40: `for(i < length) s[i] = dist(engine)`; `draw lo hi i` is the `i`-th value the
distribution delivers. -/
def rndLoop (draw : Nat → Int) (length i : Nat) (s : List Int) : Res (List Int) :=
  if i < length then
    if i < s.length then rndLoop draw length (i + 1) (s.set i (draw i)) else .error .ub
  else .ok s
termination_by length - i

/-- generators/RandomUniformGenerator.hpp:28-43, `generate(length, seed, min, max)`.  Engine and seed are abstracted into `draw`: the
sequence of values the distribution object for the bounds `lo`, `hi` delivers.  `uniform_int_distribution(a, b)` requires `a ≤ b`. -/
def randomUniform (draw : Int → Int → Nat → Int) (length min max : Nat) : Res (List Int) :=
  let lo := if max < min then max else min
  let hi := if max < min then min else max
  if toSChar hi < toSChar lo then .error .ub else
  rndLoop (draw (toSChar lo) (toSChar hi)) length 0 (List.replicate length 0)

end Gen
end Tdc
