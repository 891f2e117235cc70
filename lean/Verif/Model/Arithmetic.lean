import Verif.Model.Simple

/-!
# coders/ArithmeticCoder.hpp

`ulong` is 64 bits, `len_fixup_t` and `len_t` 32 bits, `int` 32 bits. The 32-bit sums of the counts are not wrapped around (the
statements are about fewer than 2^31 literals).
-/

namespace Tdc
namespace Arith

/-- arithmetic in `len_t` (irreducible for the prover's sake only) -/
@[irreducible] def u32 (n : Nat) : Nat := n % 2 ^ 32

/-- arithmetic in `ulong` (irreducible for the prover's sake only) -/
@[irreducible] def u64 (n : Nat) : Nat := n % 2 ^ 64

/-- `std::numeric_limits<ulong>::max()` (irreducible for the prover's sake only) -/
@[irreducible] def ulongMax : Nat := 2 ^ 64 - 1

/-- ArithmeticCoder.hpp:55-69 `count_alphabet_literals` -/
def cnt (ls : List UInt8) (i : Nat) : Nat := ls.countP fun c => c.toNat == i

/-- ArithmeticCoder.hpp:82-88: `c[i] = c[i] + c[i-1]` -/
def cum (c : Nat → Nat) : Nat → Nat
  | 0 => c 0
  | i + 1 => c (i + 1) + cum c i

/-- ArithmeticCoder.hpp:80-86: `min` over the symbols from 1 on (symbol 0 is left out) -/
def minCount (c : Nat → Nat) : Nat :=
  (List.range' 1 255).foldl (fun m i => if c i ≠ 0 then min m (c i) else m) (2 ^ 32 - 1)

/-- ArithmeticCoder.hpp:77-86: `codebook_size`, an `uliteral_t` -/
def codebookSize (c : Nat → Nat) : Nat := ((List.range 256).countP fun i => decide (c i ≠ 0)) % 256

/-- ArithmeticCoder.hpp:92-94: the normalized intervals, `C` of the encoder -/
def norm (c : Nat → Nat) (i : Nat) : Nat := cum c i / minCount c

/-- ArithmeticCoder.hpp:41-49 -/
structure Enc where
  C : Nat → Nat
  lb : Nat
  ub : Nat
  count : Nat
  counter : Nat
  minRange : Nat

/-- ArithmeticCoder.hpp:112 and 115, 196: offset of the bound `x` (unsigned arithmetic) -/
def off (range L x : Nat) : Nat := if range ≤ L then u64 (range * x) / L else u64 (range / L * x)

/-- `upper_bound - lower_bound` -/
def rng (lb ub : Nat) : Nat := u64 (ub + 2 ^ 64 - lb)

/-- ArithmeticCoder.hpp:106-117: new bounds inside of the current ones; division by zero if there is no interval -/
def Enc.narrow (e : Enc) (v : Nat) : Res Enc :=
  if e.C 255 = 0 then .error .ub
  else
    .ok { e with ub := u64 (e.lb + off (rng e.lb e.ub) (e.C 255) (e.C v)),
                 lb := if v ≠ 0 then u64 (e.lb + off (rng e.lb e.ub) (e.C 255) (e.C (v - 1))) else e.lb }

/-- ArithmeticCoder.hpp:98-105: write a code if the range got too small -/
def Enc.refresh (e : Enc) : List Nat × Enc :=
  if rng e.lb e.ub < e.minRange then ([e.lb], { e with lb := 0, ub := ulongMax }) else ([], e)

/-- ArithmeticCoder.hpp:154-157 `postProcessing` -/
def Enc.finish (e : Enc) : List Nat := if e.counter = e.count then [e.lb, ulongMax] else []

/-- ArithmeticCoder.hpp:173 `literal_counter++` -/
def Enc.bump (e : Enc) : Enc := { e with counter := u32 (e.counter + 1) }

/-- ArithmeticCoder.hpp:172-180 `encode(v, LiteralRange)`: the codes written -/
def Enc.literal (e : Enc) (v : Nat) : Res (List Nat × Enc) :=
  (e.refresh.2.bump.narrow v).bind fun e' => .ok (e.refresh.1 ++ e'.finish, e')

/-- `write_int(ulong)` for each -/
def codeBits (codes : List Nat) : List Bool := codes.flatMap fun x => writeInt x 64

/-- one `encode` call: ranges other than the literal range use the default implementation (Coder.hpp:55-75), which is that of the bit
coder -/
def Enc.step (e : Enc) (t : Token) : Res (List Bool × Enc) :=
  if t.1 = .literal then
    (e.literal t.2).bind fun r => .ok (codeBits r.1, r.2)
  else .ok (bitCoder.enc t.1 t.2, e)

/-- all `encode` calls -/
def Enc.run : Enc → List Token → Res (List Bool)
  | _, [] => .ok []
  | e, t :: ts =>
    (e.step t).bind fun r => (r.2.run ts).bind fun bits => .ok (r.1 ++ bits)

/-- the interval of symbol `v` begins here -/
def before (C : Nat → Nat) (v : Nat) : Nat := if v = 0 then 0 else C (v - 1)

/-- ArithmeticCoder.hpp:135-146: the entries of the code book from `a` on, `n` symbols -/
def book (C : Nat → Nat) (a : Nat) : Nat → List (Nat × Nat)
  | 0 => []
  | n + 1 => if before C a ≠ C a then (a, C a) :: book C (a + 1) n else book C (a + 1) n

/-- ArithmeticCoder.hpp:121-147 `writeCodebook` -/
def header (count size : Nat) (C : Nat → Nat) : List Bool :=
  writeInt count 32 ++ writeInt size 8 ++ (book C 0 256).flatMap fun x => writeInt x.1 8 ++ writeInt x.2 32

/-- ArithmeticCoder.hpp:75-95, 160-167: the encoder after construction (`literal_count = c[ULITERAL_MAX-1]`) -/
def Enc.init (ls : List UInt8) : Enc := ⟨norm (cnt ls), 0, ulongMax, cum (cnt ls) 254, 0, norm (cnt ls) 254⟩

/-- a coder with announced literals `ls` and the calls `ts` -/
def encodeFile (ls : List UInt8) (ts : List Token) : Res (List UInt8) :=
  ((Enc.init ls).run ts).bind fun bits =>
    .ok (BitO.toBytes (header (Enc.init ls).count (codebookSize (cnt ls)) (Enc.init ls).C ++ bits))

/-- ArithmeticCoder.hpp:186-192 -/
structure Dec where
  lits : List (Nat × Nat)
  count : Nat
  counter : Nat
  minRange : Nat
  decoded : List Nat
  read : Nat
  bits : List Bool

/-- an `int` as `ulong` -/
def sext (v : Nat) : Nat := if v < 2 ^ 31 then v else v + (2 ^ 64 - 2 ^ 32)

/-- ArithmeticCoder.hpp:230-235: read `n` entries -/
def rdBook : Nat → List Bool → List (Nat × Nat) × List Bool
  | 0, bs => ([], bs)
  | n + 1, bs =>
    let a := rdInt 8 8 bs
    let b := rdInt 32 32 a.2
    let r := rdBook n b.2
    ((a.1, sext b.1) :: r.1, r.2)

/-- ArithmeticCoder.hpp:224-238: the constructor; `literals[codebook_size-1]` is out of bounds for an empty code book -/
def Dec.open (bs : List Bool) : Res Dec :=
  let a := rdInt 32 32 bs
  let b := rdInt 8 8 a.2
  let r := rdBook b.1 b.2
  match r.1.getLast? with
  | none => .error .ub
  | some x => .ok ⟨r.1, a.1, 0, x.2, [], 0, r.2⟩

/-- ArithmeticCoder.hpp:194-206: find the interval of `code`: symbol and new bounds. `ilb` is `interval_lower_bound`, `ub` the current
`upper_bound`. If none is found the lower bound stays. -/
def search (code lb range parts : Nat) : List (Nat × Nat) → Nat → Nat → Option Nat × Nat × Nat
  | [], _, ub => (none, lb, ub)
  | (c, x) :: ps, ilb, _ =>
    let ub := u64 (lb + off range parts x)
    if code < ub then (some c, ilb, ub) else search code lb range parts ps ub ub

/-- ArithmeticCoder.hpp:191-209: `n` literals may still be decoded; the symbols and the number of rounds -/
def blockLoop (lits : List (Nat × Nat)) (minRange parts code : Nat) : Nat → Nat → Nat → List Nat × Nat
  | 0, _, _ => ([], 0)
  | n + 1, lb, ub =>
    if minRange ≤ rng lb ub then
      let s := search code lb (rng lb ub) parts lits lb ub
      let r := blockLoop lits minRange parts code n s.2.1 s.2.2
      (s.1.toList ++ r.1, r.2 + 1)
    else ([], 0)

/-- ArithmeticCoder.hpp:182-213 `decode(code)` -/
def Dec.block (d : Dec) (code : Nat) : Res Dec :=
  match d.lits.getLast? with
  | none => .error .ub
  | some x =>
    if x.2 = 0 ∧ d.counter < d.count ∧ d.minRange ≤ ulongMax then .error .ub
    else
      let r := blockLoop d.lits d.minRange x.2 code (d.count - d.counter) 0 (ulongMax)
      .ok { d with decoded := r.1, counter := d.counter + r.2, read := 0 }

/-- `code != std::numeric_limits<ulong>::max()` (irreducible for the prover's sake only) -/
@[irreducible] def noDummy (code : Nat) : Bool := code != ulongMax

/-- ArithmeticCoder.hpp:246-250, 255-259: read a code, decode it unless it is the dummy -/
def Dec.next (d : Dec) : Res Dec :=
  let a := rdInt 64 64 d.bits
  if noDummy a.1 then { d with bits := a.2 }.block a.1 else .ok { d with bits := a.2 }

/-- `decoded[literals_read]` (`std::string`: the position after the last character holds a null) -/
def Dec.cur (d : Dec) : Res Nat :=
  if d.read = d.decoded.length then .ok 0
  else
    match d.decoded[d.read]? with
    | none => .error .ub
    | some v => .ok v

/-- ArithmeticCoder.hpp:243-245 -/
def Dec.prepare (d : Dec) : Res Dec := if d.decoded.length = 0 then d.next else .ok d

/-- ArithmeticCoder.hpp:253-259 -/
def Dec.after (d : Dec) : Res Dec := if d.read = d.decoded.length then d.next else .ok d

/-- ArithmeticCoder.hpp:243-263 `decode(LiteralRange)` -/
def Dec.literal (d : Dec) : Res (Nat × Dec) :=
  d.prepare.bind fun d => d.cur.bind fun v => ({ d with read := d.read + 1 } : Dec).after.bind fun d => .ok (v, d)

/-- compressors/LiteralEncoder.hpp:22-31 `compress` -/
def compress (text : List UInt8) : Res (List UInt8) := encodeFile text (literalTokens text)

/-- compressors/LiteralEncoder.hpp:37-39 (fuel) -/
def decLoop : Nat → Dec → Res (List UInt8)
  | 0, _ => .error .loop
  | fuel + 1, d =>
    if d.bits.isEmpty then .ok []
    else
      d.literal.bind fun r => (decLoop fuel r.2).bind fun out => .ok (UInt8.ofNat r.1 :: out)

/-- compressors/LiteralEncoder.hpp:33-40 `decompress`. A code yields at most the announced number of literals, so the rounds are bounded. -/
def decompress (bytes : List UInt8) : Res (List UInt8) :=
  (Dec.open (bitsOf bytes)).bind fun d => decLoop (d.count + d.bits.length + 2) d

end Arith
end Tdc
