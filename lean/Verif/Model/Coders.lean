import Verif.Model.BitIO

/-!
# Model of `Range.hpp`, `Coder.hpp` and the universal coders in `coders/`

Values passed to `encode` are unsigned (`size_t`); the one place where the library passes a *signed*
`char` as a literal is `encSChar`.
-/

namespace Tdc

/-- Range.hpp: the static type of the range argument selects the overload. `range` stands for `Range`,
`MinDistributedRange`, `LengthRange`, `TypeRange<…>` (all are `Range`s for the universal coders). -/
inductive Rng where
  | range (min max : Nat)
  | literal
  | bit
deriving DecidableEq, Repr

namespace Rng
/-- Range.hpp:39 `min()` -/
def min : Rng → Nat
  | range a _ => a
  | literal => 0
  | bit => 0
/-- Range.hpp:43 `max()`; Range.hpp:91-94 LiteralRange, Range.hpp:103 BitRange -/
def max : Rng → Nat
  | range _ b => b
  | literal => 255
  | bit => 1

/-- `v` is a legal value for the range (and everything is a `size_t`). -/
def Has (r : Rng) (v : Nat) : Prop := r.min ≤ v ∧ v ≤ r.max ∧ r.max < 2 ^ 64

instance (r : Rng) (v : Nat) : Decidable (r.Has v) := inferInstanceAs (Decidable (_ ∧ _))
end Rng

/-- A coder: what `Encoder::encode(v, r)` passes to `write_bit`, and what `Decoder::decode<size_t>(r)` returns
together with the bits that remain. -/
structure UCoder where
  enc : Rng → Nat → List Bool
  dec : Rng → List Bool → Res (Nat × List Bool)
  /-- `encode(c, literal_r)` with `c` a (signed) `char`; `none` = undefined behaviour. -/
  encSChar : UInt8 → Option (List Bool)

/-- Coder.hpp:52-55 / Coder.hpp:121-124: the default coders (= `BitCoder`, coders/BitCoder.hpp).
`v - r.min()` is computed in `size_t`. -/
def bitCoder : UCoder where
  enc
    | .bit, v => [decide (v ≠ 0)]                       -- Coder.hpp:66-69
    | r, v => writeInt ((v + 2 ^ 64 - r.min) % 2 ^ 64) (bitsFor (r.max - r.min))
  dec
    | .bit, bs => .ok ((rdBit bs).1.toNat, (rdBit bs).2) -- Coder.hpp:133-136
    | r, bs =>
      let (v, bs) := rdInt 64 (bitsFor (r.max - r.min)) bs
      .ok ((r.min + v) % 2 ^ 64, bs)
  -- a negative char is sign-extended by the subtraction of a size_t; only the low 8 bits are written
  encSChar c := some (writeInt (toSizeT (schar c)) (bitsFor 255))

/-- coders/EliasGammaCoder.hpp:26-29, 38-41; bits through Coder.hpp:66-69, 133-136 (`using`).
A negative `char` has `bits_for(size_t(c)) = 64` and `char(1) << 63` is undefined. -/
def gammaCoder : UCoder where
  enc
    | .bit, v => [decide (v ≠ 0)]
    | _, v => writeGamma v
  dec
    | .bit, bs => .ok ((rdBit bs).1.toNat, (rdBit bs).2)
    | _, bs => rdGamma 64 bs
  encSChar c := if c.toNat < 128 then some (writeGamma c.toNat) else none

/-- coders/EliasDeltaCoder.hpp:26-29, 38-41 -/
def deltaCoder : UCoder where
  enc
    | .bit, v => [decide (v ≠ 0)]
    | _, v => writeDelta v
  dec
    | .bit, bs => .ok ((rdBit bs).1.toNat, (rdBit bs).2)
    | _, bs => rdDelta 64 bs
  encSChar c := if c.toNat < 128 then some (writeDelta c.toNat) else none

/-- io/BitOStream.hpp:112-122 `write_ternary` on a negative value `-m - 1 + 1`: after `--v` the value is `-m`;
C++ `%` and `/` truncate towards zero, so the digits written are `-(m % 3)` in two bits. -/
def writeTernaryNegLoop (m : Nat) : List Bool :=
  writeInt ((4 - m % 3) % 4) 2 ++ (if _h : m / 3 = 0 then [] else writeTernaryNegLoop (m / 3))
  decreasing_by omega

/-- coders/TernaryCoder.hpp:21-24, 32-35 (not in the default registry) -/
def ternaryCoder : UCoder where
  enc
    | .bit, v => [decide (v ≠ 0)]
    | _, v => writeTernary v
  dec
    | .bit, bs => .ok ((rdBit bs).1.toNat, (rdBit bs).2)
    | _, bs => rdTernary 64 bs
  encSChar c := if c.toNat < 128 then some (writeTernary c.toNat)
    else some (writeTernaryNegLoop (256 - c.toNat + 1) ++ writeInt 3 2)

/-- decimal digits, most significant first, as printed by `std::ostream << size_t` -/
def decDigits (v : Nat) : List Nat :=
  if _h : v < 10 then [v] else decDigits (v / 10) ++ [v % 10]
  decreasing_by omega

/-- coders/ASCIICoder.hpp:58-65: collect digits while the byte read is `'0'..'9'` (fuel: each round
that continues consumes a bit). -/
def rdDigits : Nat → List Bool → Res (List Nat × List Bool)
  | 0, _ => .error .loop
  | fuel + 1, bs =>
    let (c, bs) := rdInt 8 8 bs
    if 48 ≤ c ∧ c ≤ 57 then
      match rdDigits fuel bs with
      | .error e => .error e
      | .ok (ds, bs) => .ok ((c - 48) :: ds, bs)
    else .ok ([], bs)

/-- `std::istringstream(s) >> v` for a digit string and a 64-bit unsigned `v`: the empty string gives 0, a number that
does not fit gives the maximum. -/
def parseDec (ds : List Nat) : Nat :=
  let v := ds.foldl (fun a d => a * 10 + d) 0
  if v < 2 ^ 64 then v else 2 ^ 64 - 1

/-- coders/ASCIICoder.hpp:33-49, 57-84 -/
def asciiCoder : UCoder where
  enc
    | .literal, v => writeInt (v % 256) 8                      -- `uint8_t(v)`
    | .bit, v => writeInt (if v ≠ 0 then 49 else 48) 8         -- '1' / '0'
    | .range _ _, v => (decDigits v).flatMap (fun d => writeInt (48 + d) 8) ++ writeInt 58 8
  dec
    | .literal, bs => .ok (rdInt 8 8 bs)
    | .bit, bs => let (b, bs) := rdInt 8 8 bs; .ok (if b ≠ 48 then 1 else 0, bs)
    | .range _ _, bs =>
      match rdDigits (bs.length + 1) bs with
      | .error e => .error e
      | .ok (ds, bs) => .ok (parseDec ds, bs)
  encSChar c := some (writeInt (c.toNat % 256) 8)

/-- The coders of `etc/registry_config.py` for "universal" use, plus the ternary coder. -/
inductive CoderName where | ascii | bit | gamma | delta | ternary
deriving DecidableEq, Repr

/-- name → implementation -/
def CoderName.coder : CoderName → UCoder
  | .ascii => asciiCoder | .bit => bitCoder | .gamma => gammaCoder | .delta => deltaCoder
  | .ternary => ternaryCoder

/-! ## Tokens

A compressor using a coder performs a sequence of `encode(v, r)` calls. -/

/-- One `encode` call: range and value. -/
abbrev Token := Rng × Nat

/-- Bits written by a sequence of `encode` calls. -/
def UCoder.encAll (c : UCoder) (ts : List Token) : List Bool := ts.flatMap fun t => c.enc t.1 t.2

/-- Decode a fixed sequence of ranges. -/
def UCoder.decAll (c : UCoder) : List Rng → List Bool → Res (List Nat × List Bool)
  | [], bs => .ok ([], bs)
  | r :: rs, bs =>
    match c.dec r bs with
    | .error e => .error e
    | .ok (v, bs) =>
      match c.decAll rs bs with
      | .error e => .error e
      | .ok (vs, bs) => .ok (v :: vs, bs)

/-- A coder is lawful when decoding inverts encoding for every value in range, whatever follows, and every
token occupies at least one bit. -/
structure UCoder.Lawful (c : UCoder) : Prop where
  dec_enc : ∀ r v rest, r.Has v → c.dec r (c.enc r v ++ rest) = .ok (v, rest)
  enc_ne_nil : ∀ r v, r.Has v → c.enc r v ≠ []

end Tdc
