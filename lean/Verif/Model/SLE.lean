import Mathlib.Data.List.Sort
import Verif.Model.Coders

/-!
# Model of `coders/SLECoder.hpp` and `util/Counter.hpp`
-/

namespace Tdc

/-! ## util/Counter.hpp -/

/-- util/Counter.hpp:17: the map of a `Counter<size_t>` as an association list with distinct keys. (The iteration order of
`unordered_map` never shows: the only traversal sorts by a total order.) -/
abbrev CounterMap := List (Nat × Nat)

/-- util/Counter.hpp:24-29 `increase` -/
def CounterMap.increase : CounterMap → Nat → CounterMap
  | [], x => [(x, 1)]
  | (y, n) :: m, x => if y = x then (y, n + 1) :: m else (y, n) :: CounterMap.increase m x

/-- util/Counter.hpp:32-34 `setCount` -/
def CounterMap.setCount : CounterMap → Nat → Nat → CounterMap
  | [], x, c => [(x, c)]
  | (y, n) :: m, x, c => if y = x then (y, c) :: m else (y, n) :: CounterMap.setCount m x c

/-- util/Counter.hpp:50-59: the comparison of `getSorted` (as a reflexive order) -/
def counterLe (a b : Nat × Nat) : Prop := if a.2 ≠ b.2 then a.2 > b.2 else a.1 ≤ b.1

instance : DecidableRel counterLe := fun a b => inferInstanceAs (Decidable (if a.2 ≠ b.2 then a.2 > b.2 else a.1 ≤ b.1))

/-- util/Counter.hpp:47-69 `getSorted`: `std::sort` by a total order on entries with distinct keys has exactly one possible
result. -/
def CounterMap.getSorted (m : CounterMap) : List (Nat × Nat) := m.insertionSort counterLe

/-! ## SLECoder.hpp -/

namespace SLE

/-- SLECoder.hpp:12-13: `0xFF << 56` -/
def kmerMask : Nat := 0xFF <<< 56

/-- SLECoder.hpp:15-17 -/
def isKmer (x : Nat) : Bool := x &&& kmerMask = kmerMask

/-- SLECoder.hpp:22-24: the loop over `i`; the list is the k-mer from its last byte to its first -/
def compileLoop : List UInt8 → Nat → Nat → Nat
  | [], _, sym => sym
  | c :: cs, i, sym => compileLoop cs (i + 1) (sym ||| (c.toNat <<< (8 * i)) % 2 ^ 64)

/-- SLECoder.hpp:19-27 (shifting a 64-bit value by 64 or more is undefined, i.e. a k-mer of more than 8 bytes) -/
def compile (kmer : List UInt8) : Res Nat :=
  if kmer.length > 8 then .error .ub else .ok (compileLoop kmer.reverse 0 0 ||| kmerMask)

/-- SLECoder.hpp:29-33 -/
def decompile (x k : Nat) : List UInt8 := ((List.range k).map fun i => UInt8.ofNat ((x >>> (8 * i)) &&& 0xFF)).reverse

/-- SLECoder.hpp:58-69 `kmer_roll`: the buffer is the list of its `m_kmer_cur` bytes. `m_kmer[0]` of a zero-length array is
undefined. -/
def roll (k : Nat) (buf : List UInt8) (c : UInt8) : Res (Option UInt8 × List UInt8) :=
  if buf.length = k then
    match buf with
    | [] => .error .ub
    | out :: rest => .ok (some out, rest ++ [c])
  else .ok (none, buf ++ [c])

/-- State of the counting loop: buffer, `last_literal_pos`, `alphabet`, `kmers` -/
structure Count where
  buf : List UInt8
  last : Nat
  alphabet : CounterMap
  kmers : CounterMap

/-- SLECoder.hpp:93-118: one round of the loop over the announced literals -/
def countStep (k : Nat) (s : Count) (l : UInt8 × Nat) : Res Count :=
  if k > 1 then
    match roll k (if l.2 ≠ s.last + 1 then [] else s.buf) l.1 with
    | .error e => .error e
    | .ok (_, buf) =>
      if buf.length = k then
        match compile buf with
        | .error e => .error e
        | .ok x => .ok ⟨buf, l.2, s.alphabet.increase l.1.toNat, s.kmers.increase x⟩
      else .ok ⟨buf, l.2, s.alphabet.increase l.1.toNat, s.kmers⟩
  else .ok ⟨s.buf, l.2, s.alphabet.increase l.1.toNat, s.kmers⟩

/-- SLECoder.hpp:93-118 -/
def countLoop (k : Nat) : List (UInt8 × Nat) → Count → Res Count
  | [], s => .ok s
  | l :: ls, s =>
    match countStep k s l with
    | .error e => .error e
    | .ok s => countLoop k ls s

/-- SLECoder.hpp:121: `bits_for(sigma - 1)`, the subtraction wraps around for `sigma = 0` -/
def sigmaBits (sigma : Nat) : Nat := bitsFor ((sigma + 2 ^ 64 - 1) % 2 ^ 64)

/-- SLECoder.hpp:133-136: merge the most common k-mers, at most `eta` (which is at least 1) -/
def merge : List (Nat × Nat) → Nat → CounterMap → CounterMap
  | [], _, al => al
  | e :: es, eta, al => if eta - 1 = 0 then al.setCount e.1 e.2 else merge es (eta - 1) (al.setCount e.1 e.2)

/-- SLECoder.hpp:124-141: alphabet extension; `1 << 64` is undefined (no literals announced) -/
def extend (k : Nat) (al kmers : CounterMap) : Res CounterMap :=
  if k > 1 then
    let sigma := al.length
    let b := sigmaBits sigma
    if b ≥ 64 then .error .ub
    else
      let add := if 1 <<< b = sigma then 1 else 2
      let eta := (1 <<< (b + add)) - sigma
      .ok (merge kmers.getSorted eta al)
  else .ok al

/-- SLECoder.hpp:79-166: the ranking, i.e. the symbols in the order of `getSorted()`; `m_ranking[x]` is the position of `x` -/
def ranking (k : Nat) (lits : List (UInt8 × Nat)) : Res (List Nat) :=
  match countLoop k lits ⟨[], 0, [], []⟩ with
  | .error e => .error e
  | .ok s =>
    match extend k s.alphabet s.kmers with
    | .error e => .error e
    | .ok al => .ok (al.getSorted.map (·.1))

/-- SLECoder.hpp:158-161: what the constructor writes -/
def header (rk : List Nat) : List Bool := writeCInt rk.length 7 ++ rk.flatMap (fun x => writeCInt x 7)

/-- SLECoder.hpp:193: `m_ranking[x]`; `operator[]` inserts 0 for a key that is missing (that only happens for single literals,
for which the map is never searched by `find`, so the insertion itself has no further effect) -/
def rank (rk : List Nat) (x : Nat) : Nat := if x ∈ rk then rk.idxOf x else 0

/-- SLECoder.hpp:197-247: code for a rank, `b` = `m_sigma_bits` -/
def encRank (b r : Nat) : List Bool :=
  if b < 4 then writeInt r b
  else if b < 6 then
    if r < 4 then [false] ++ writeInt r 2 else [true] ++ writeInt r b
  else if b = 6 then
    if r < 8 then writeInt 0 2 ++ writeInt r 3
    else if r < 16 then writeInt 1 2 ++ writeInt (r - 8) 3
    else if r < 32 then writeInt 2 2 ++ writeInt (r - 16) 4
    else writeInt 3 2 ++ writeInt r b
  else
    if r < 4 then writeInt 0 3 ++ writeInt r 2
    else if r < 8 then writeInt 1 3 ++ writeInt (r - 4) 2
    else if r < 12 then writeInt 2 3 ++ writeInt (r - 8) 2
    else if r < 16 then writeInt 3 3 ++ writeInt (r - 12) 2
    else if r < 24 then writeInt 4 3 ++ writeInt (r - 16) 3
    else if r < 32 then writeInt 5 3 ++ writeInt (r - 24) 3
    else if r < 40 then writeInt 6 3 ++ writeInt (r - 32) 3
    else writeInt 7 3 ++ writeInt r b

/-- SLECoder.hpp:192-248 `encode_sym`; `b` = `m_sigma_bits` -/
def encSym (b : Nat) (rk : List Nat) (x : Nat) : List Bool := encRank b (rank rk x)

/-- SLECoder.hpp:182-190 `flush_kmer` (also the destructor, 173-179); the buffer is empty afterwards -/
def flush (b : Nat) (rk : List Nat) (buf : List UInt8) : List Bool := buf.flatMap fun c => encSym b rk c.toNat

/-- The ranges this coder distinguishes: `Range`, `MinDistributedRange`, `LiteralRange`, `BitRange` (Range.hpp). -/
inductive SRng where
  | range (min max : Nat)
  | minDist (min max : Nat)
  | literal
  | bit
deriving DecidableEq, Repr

/-- The legal values of a range. -/
def SRng.Has : SRng → Nat → Prop
  | .range a b, v => a ≤ v ∧ v ≤ b ∧ b < 2 ^ 64
  | .minDist a b, v => a ≤ v ∧ v ≤ b ∧ b < 2 ^ 64
  | .literal, v => v ≤ 255
  | .bit, v => v ≤ 1

instance (r : SRng) (v : Nat) : Decidable (r.Has v) := by cases r <;> (unfold SRng.Has; infer_instance)

/-- SLECoder.hpp:261-268: if the buffer is full and its k-mer has a rank, write that and reset the buffer; `pre` = bits written before -/
def tryKmer (k sb : Nat) (rk : List Nat) (pre : List Bool) (buf : List UInt8) : Res (List Bool × List UInt8) :=
  if buf.length = k then
    match compile buf with
    | .error e => .error e
    | .ok x => if x ∈ rk then .ok (pre ++ encSym sb rk x, []) else .ok (pre, buf)
  else .ok (pre, buf)

/-- SLECoder.hpp:251-308: `encode(v, r)` with the k-mer buffer; the subtraction `v - r.min()` is in `size_t` -/
def encode (k sb : Nat) (rk : List Nat) (buf : List UInt8) : SRng → Nat → Res (List Bool × List UInt8)
  | .literal, v =>
    match roll k buf (UInt8.ofNat v) with
    | .error e => .error e
    | .ok (out, buf) =>
      -- 256-259: encode the character rolled out
      tryKmer k sb rk (match out with
        | some o => encSym sb rk o.toNat
        | none => []) buf
  | .range a b, v => .ok (flush sb rk buf ++ writeInt ((v + 2 ^ 64 - a) % 2 ^ 64) (bitsFor (b - a)), [])
  | .minDist a b, v =>
    let v := (v + 2 ^ 64 - a) % 2 ^ 64
    let bits := bitsFor (b - a)
    .ok (flush sb rk buf ++
      (if bits ≤ 5 then writeInt v bits
       else if v < 8 then writeInt 0 2 ++ writeInt v 3
       else if v < 16 then writeInt 1 2 ++ writeInt (v - 8) 3
       else if v < 32 then writeInt 2 2 ++ writeInt (v - 16) 4
       else writeInt 3 2 ++ writeInt v bits), [])
  | .bit, v => .ok (flush sb rk buf ++ [decide (v ≠ 0)], [])

/-- A sequence of `encode` calls followed by the destruction of the encoder (SLECoder.hpp:173-179). -/
def encodeAll (k sb : Nat) (rk : List Nat) : List UInt8 → List (SRng × Nat) → Res (List Bool)
  | buf, [] => .ok (flush sb rk buf)
  | buf, t :: ts =>
    match encode k sb rk buf t.1 t.2 with
    | .error e => .error e
    | .ok (bits, buf) =>
      match encodeAll k sb rk buf ts with
      | .error e => .error e
      | .ok rest => .ok (bits ++ rest)

/-- Everything an encoder writes: constructor, calls, destructor. -/
def run (k : Nat) (lits : List (UInt8 × Nat)) (ts : List (SRng × Nat)) : Res (List Bool) :=
  match ranking k lits with
  | .error e => .error e
  | .ok rk =>
    match encodeAll k (sigmaBits rk.length) rk [] ts with
    | .error e => .error e
    | .ok bits => .ok (header rk ++ bits)

/-! ## Decoder -/

/-- SLECoder.hpp:312-319: `m_k`, `m_sigma_bits`, `m_inv_ranking`, the bytes of the current k-mer not delivered yet (`m_kmer[m_kmer_read ..]`), and
the bits the stream still delivers -/
structure Dec where
  k : Nat
  sb : Nat
  inv : List Nat
  pend : List UInt8
  bits : List Bool

/-- SLECoder.hpp:337-345: `sigma` symbols -/
def readSyms : Nat → List Bool → Res (List Nat × List Bool)
  | 0, bs => .ok ([], bs)
  | n + 1, bs =>
    match rdCInt 7 bs with
    | .error e => .error e
    | .ok (x, bs) =>
      match readSyms n bs with
      | .error e => .error e
      | .ok (xs, bs) => .ok (x :: xs, bs)

/-- SLECoder.hpp:326-346: constructor -/
def Dec.open (k : Nat) (bs : List Bool) : Res Dec :=
  match rdCInt 7 bs with
  | .error e => .error e
  | .ok (sigma, bs) =>
    match readSyms sigma bs with
    | .error e => .error e
    | .ok (inv, bs) => .ok ⟨k, sigmaBits sigma, inv, [], bs⟩

/-- SLECoder.hpp:358-366 -/
def Dec.eof (d : Dec) : Bool := d.pend.isEmpty && d.bits.isEmpty

/-- SLECoder.hpp:375-404: read a rank, `b` = `m_sigma_bits` -/
def decRank (b : Nat) (bs : List Bool) : Nat × List Bool :=
  if b < 4 then rdInt 64 b bs
  else if b < 6 then
    let (x, bs) := rdBit bs
    if x = false then rdInt 64 2 bs else rdInt 64 b bs
  else if b = 6 then
    let (x, bs) := rdInt 8 2 bs
    match x with
    | 0 => rdInt 64 3 bs
    | 1 => let (r, bs) := rdInt 64 3 bs; (8 + r, bs)
    | 2 => let (r, bs) := rdInt 64 4 bs; (16 + r, bs)
    | _ => rdInt 64 b bs
  else
    let (x, bs) := rdInt 8 3 bs
    match x with
    | 0 => rdInt 64 2 bs
    | 1 => let (r, bs) := rdInt 64 2 bs; (4 + r, bs)
    | 2 => let (r, bs) := rdInt 64 2 bs; (8 + r, bs)
    | 3 => let (r, bs) := rdInt 64 2 bs; (12 + r, bs)
    | 4 => let (r, bs) := rdInt 64 3 bs; (16 + r, bs)
    | 5 => let (r, bs) := rdInt 64 3 bs; (24 + r, bs)
    | 6 => let (r, bs) := rdInt 64 3 bs; (32 + r, bs)
    | _ => rdInt 64 b bs

/-- SLECoder.hpp:428-441: a value of a `MinDistributedRange` -/
def decMin (bits : Nat) (bs : List Bool) : Nat × List Bool :=
  if bits ≤ 5 then rdInt 64 bits bs
  else
    let (x, bs) := rdInt 8 2 bs
    match x with
    | 0 => rdInt 64 3 bs
    | 1 => let (v, bs) := rdInt 64 3 bs; (8 + v, bs)
    | 2 => let (v, bs) := rdInt 64 4 bs; (16 + v, bs)
    | _ => rdInt 64 bits bs

/-- SLECoder.hpp:368-450: `decode<size_t>(r)`; `m_inv_ranking[r]` outside of the array is undefined. -/
def Dec.decode (d : Dec) : SRng → Res (Nat × Dec)
  | .literal =>
    match d.pend with
    | c :: rest => .ok (c.toNat, { d with pend := rest })
    | [] =>
      let (r, bs) := decRank d.sb d.bits
      match d.inv[r]? with
      | none => .error .ub
      | some x =>
        if isKmer x then
          match decompile x d.k with
          | [] => .error .ub
          | c :: rest => .ok (c.toNat, { d with pend := rest, bits := bs })
        else .ok (x, { d with bits := bs })
  | .range a b =>
    let (v, bs) := rdInt 64 (bitsFor (b - a)) d.bits
    .ok ((v + a) % 2 ^ 64, { d with pend := [], bits := bs })
  | .minDist a b =>
    let (v, bs) := decMin (bitsFor (b - a)) d.bits
    .ok ((v + a) % 2 ^ 64, { d with pend := [], bits := bs })
  | .bit => .ok ((rdBit d.bits).1.toNat, { d with pend := [], bits := (rdBit d.bits).2 })

/-- Decode a sequence of ranges. -/
def Dec.decodeAll : Dec → List SRng → Res (List Nat × Dec)
  | d, [] => .ok ([], d)
  | d, r :: rs =>
    match d.decode r with
    | .error e => .error e
    | .ok (v, d) =>
      match d.decodeAll rs with
      | .error e => .error e
      | .ok (vs, d) => .ok (v :: vs, d)

end SLE
end Tdc
