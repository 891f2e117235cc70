import Verif.Model.Coders
import Verif.Model.TextDS

/-!
# Model of coders/HuffmanCoder.hpp

The standard library's heap and sort algorithms are parameters (`StdLib`): every implementation with the guarantees
of the C++ standard is covered.
-/

namespace Tdc

/-- `std::make_heap`, `std::pop_heap`, `std::push_heap` (with the comparator `A[a] > A[b]`, so that the top has the least
weight `w`) and `std::sort` by a key, on the contents of the range; `valid w l` is "`l` is a heap". -/
structure StdLib where
  valid : (Nat → Nat) → List Nat → Prop
  make : (Nat → Nat) → List Nat → List Nat
  pop : (Nat → Nat) → List Nat → List Nat
  push : (Nat → Nat) → List Nat → List Nat
  sort : (Nat → Nat) → List Nat → List Nat
  /-- being a heap depends only on the weights of the elements -/
  valid_congr : ∀ w w' l, (∀ x ∈ l, w x = w' x) → valid w l → valid w' l
  make_perm : ∀ w l, (make w l).Perm l
  make_valid : ∀ w l, valid w (make w l)
  pop_perm : ∀ w l, (pop w l).Perm l
  /-- the popped element is last and has least weight; the rest is a heap -/
  pop_spec : ∀ w l, valid w l → ∀ base m, pop w l = base ++ [m] → (∀ x ∈ l, w m ≤ w x) ∧ valid w base
  push_perm : ∀ w l, (push w l).Perm l
  push_valid : ∀ w base m, valid w base → valid w (push w (base ++ [m]))
  sort_perm : ∀ k l, (sort k l).Perm l
  sort_sorted : ∀ k l, (sort k l).Pairwise fun a b => k a ≤ k b

namespace Huff

/-- coders/HuffmanCoder.hpp:36-48 `count_alphabet_literals` (also 22-35): `++C[c]` on `len_compact_t`
(`uint32_t` in the default build, def.hpp:103). -/
def countAlphabet : List UInt8 → (Nat → Nat) → Nat → Nat
  | [], C => C
  | c :: ls, C => countAlphabet ls fun j => if j = c.toNat then (C j + 1) % 2 ^ 32 else C j

/-- coders/HuffmanCoder.hpp:62-77 `gen_effective_alphabet` (and 52-54 its size): the characters with a non-zero
count in increasing order. -/
def effectiveAlphabet (C : Nat → Nat) : List Nat := (List.range 256).filter fun i => C i ≠ 0

/-- assignment `v[i] = a`, undefined out of bounds -/
def vset (v : List Nat) (i a : Nat) : Res (List Nat) := if i < v.length then .ok (v.set i a) else .error .ub

/-- The values the comparator of line 96 looks up.  It is only applied to heap entries, which are indices behind
the heap. -/
def look (A : List Nat) (a : Nat) : Nat := A.getD a 0

/-- Apply a heap operation to `A[0..k)`. -/
def onPrefix (op : (Nat → Nat) → List Nat → List Nat) (k : Nat) (A : List Nat) : List Nat :=
  op (look A) (A.take k) ++ A.drop k

/-- coders/HuffmanCoder.hpp:107-118: one round of the loop, for `h = g + 1` -/
def mergeStep (std : StdLib) (g : Nat) (A : List Nat) : Res (List Nat) :=
  let A := onPrefix std.pop (g + 2) A
  match vget A (g + 1) with
  | .error e => .error e
  | .ok m1 =>
    let A := onPrefix std.pop (g + 1) A
    match vget A g with
    | .error e => .error e
    | .ok m2 =>
      match vget A m1, vget A m2 with
      | .ok w1, .ok w2 =>
        match vset A (g + 1) ((w1 + w2) % 2 ^ 64) with
        | .error e => .error e
        | .ok A =>
          match vset A g (g + 1) with
          | .error e => .error e
          | .ok A =>
            match vset A m2 (g + 1) with
            | .error e => .error e
            | .ok A =>
              match vset A m1 (g + 1) with
              | .error e => .error e
              | .ok A => .ok (onPrefix std.push (g + 1) A)
      | _, _ => .error .ub

/-- coders/HuffmanCoder.hpp:106-119 `while(h > 0)` -/
def mergeLoop (std : StdLib) : Nat → List Nat → Res (List Nat)
  | 0, A => .ok A
  | g + 1, A =>
    match mergeStep std g A with
    | .error e => .error e
    | .ok A => mergeLoop std g A

/-- coders/HuffmanCoder.hpp:122-124: `for i: A[i] = A[A[i]] + 1`, `k` rounds to go -/
def depthLoop : Nat → Nat → List Nat → Res (List Nat)
  | 0, _, A => .ok A
  | k + 1, i, A =>
    match vget A i with
    | .error e => .error e
    | .ok p =>
      match vget A p with
      | .error e => .error e
      | .ok d =>
        match vset A i (d + 1) with
        | .error e => .error e
        | .ok A => depthLoop k (i + 1) A

/-- coders/HuffmanCoder.hpp:88-162 (and esp/HuffmanCoder.hpp:41-90) `gen_codelengths`: the depths of the leaves; `freqs` are the counts of the
effective alphabet. -/
def genDepths (std : StdLib) (freqs : List Nat) : Res (List Nat) :=
  let n := freqs.length
  let A := (List.range n).map (n + ·) ++ freqs
  let A := onPrefix std.make n A
  match mergeLoop std (n - 1) A with
  | .error e => .error e
  | .ok A =>
    match vset A 1 0 with
    | .error e => .error e
    | .ok A =>
      match depthLoop (2 * n - 2) 2 A with
      | .error e => .error e
      | .ok A => .ok (A.drop n)

/-- coders/HuffmanCoder.hpp:88-169 `gen_codelengths`: `uint8_t` truncates the lengths. -/
def genCodelengths (std : StdLib) (freqs : List Nat) : Res (List Nat) :=
  match genDepths std freqs with
  | .error e => .error e
  | .ok ds => .ok (ds.map (· % 256))

/-- coders/HuffmanCoder.hpp:181-185 (`cap` is 256: `++numl[len - 1]` on `uint8_t`), esp/HuffmanCoder.hpp:112-116 (`cap` is `2^64`) -/
def numlLoop (cap : Nat) : List Nat → List Nat → Res (List Nat)
  | [], numl => .ok numl
  | len :: lens, numl =>
    if len = 0 then .error .ub
    else
      match vget numl (len - 1) with
      | .error e => .error e
      | .ok x =>
        match vset numl (len - 1) ((x + 1) % cap) with
        | .error e => .error e
        | .ok numl => numlLoop cap lens numl

/-- coders/HuffmanCoder.hpp:173-187 `gen_numl` -/
def genNuml (cap : Nat) (lens : List Nat) (longest : Nat) : Res (List Nat) := numlLoop cap lens (List.replicate longest 0)

/-- coders/HuffmanCoder.hpp:192-198 `gen_first_codes`, from the longest length down (all values stay below 256) -/
def firstCodes : List Nat → List Nat
  | [] => []
  | _ :: l =>
    match l, firstCodes l with
    | x :: _, f :: r => ((f + x) / 2) :: f :: r
    | _, _ => [0]

/-- coders/HuffmanCoder.hpp:202-218 `gen_codewords`: `codewords[i] = firstcode[len - 1]++` -/
def codewordLoop : List Nat → List Nat → Res (List Nat)
  | [], _ => .ok []
  | len :: lens, first =>
    if len = 0 then .error .ub
    else
      match vget first (len - 1) with
      | .error e => .error e
      | .ok x =>
        match vset first (len - 1) (x + 1) with
        | .error e => .error e
        | .ok first =>
          match codewordLoop lens first with
          | .error e => .error e
          | .ok cs => .ok (x :: cs)

/-- coders/HuffmanCoder.hpp:220-259 `huffmantable`, `extended_huffmantable` -/
structure Table where
  /-- `ordered_map_from_effective` -/
  chars : List Nat
  /-- `numl` -/
  numl : List Nat
  /-- `longest` -/
  longest : Nat
  /-- `codewords` -/
  codewords : List Nat
  /-- `ordered_codelengths` -/
  lens : List Nat

/-- the elements of `v` at the given positions -/
def gather (v : List Nat) : List Nat → Res (List Nat)
  | [] => .ok []
  | i :: is =>
    match vget v i with
    | .error e => .error e
    | .ok x =>
      match gather v is with
      | .error e => .error e
      | .ok xs => .ok (x :: xs)

/-- coders/HuffmanCoder.hpp:446-474, esp/HuffmanCoder.hpp:205-238: the table for given lengths -/
def canonTable (std : StdLib) (cap : Nat) (alpha codelengths : List Nat) : Res Table :=
  let order := std.sort (look codelengths) (List.range alpha.length)
  let longest := codelengths.foldl max 0
  match gather codelengths order, gather alpha order with
  | .ok lens, .ok chars =>
    match genNuml cap lens longest with
    | .error e => .error e
    | .ok numl =>
      match codewordLoop lens (firstCodes numl) with
      | .error e => .error e
      | .ok cs => .ok ⟨chars, numl, longest, cs, lens⟩
  | _, _ => .error .ub

/-- coders/HuffmanCoder.hpp:442-474 `gen_huffmantable` -/
def genTable (std : StdLib) (C : Nat → Nat) : Res Table :=
  let alpha := effectiveAlphabet C
  match genCodelengths std (alpha.map C) with
  | .error e => .error e
  | .ok codelengths => canonTable std 256 alpha codelengths

/-- coders/HuffmanCoder.hpp:264-273 `huffmantable_encode` -/
def tableEncode (t : Table) : List Bool :=
  writeCInt t.longest 7 ++ t.numl.flatMap (fun x => writeCInt x 7) ++ writeCInt t.chars.length 7 ++
    t.chars.flatMap fun c => writeInt c 8

/-- coders/HuffmanCoder.hpp:294-303 `gen_ordered_map_to_effective`: an array of 255 bytes, `none` is an entry never
written. -/
def mapLoop : List Nat → Nat → (Nat → Option Nat) → Res (Nat → Option Nat)
  | [], _, m => .ok m
  | c :: cs, i, m =>
    if c < 255 then mapLoop cs (i + 1) (fun j => if j = c then some (i % 256) else m j) else .error .ub

/-- coders/HuffmanCoder.hpp:309-322 `huffman_encode` of a literal -/
def encodeLit (t : Table) (m : Nat → Option Nat) (c : Nat) : Res (List Bool) :=
  if 255 ≤ c then .error .ub
  else
    match m c with
    | none => .error .ub
    | some e =>
      match vget t.codewords e, vget t.lens e with
      | .ok w, .ok l => .ok (writeInt w l)
      | _, _ => .error .ub

/-- An encoder or decoder with its state. -/
inductive Mode where
  /-- `alphabet_size <= 1` -/
  | trivial
  /-- a table -/
  | table (t : Table) (m : Nat → Option Nat)

/-- coders/HuffmanCoder.hpp:525-547: the constructor of `Encoder`, given the announced literals; also the bits it writes
at once. -/
def encoder (std : StdLib) (ls : List UInt8) : Res (Mode × List Bool) :=
  let C := countAlphabet ls fun _ => 0
  if (effectiveAlphabet C).length ≤ 1 then .ok (.trivial, [false])
  else
    match genTable std C with
    | .error e => .error e
    | .ok t =>
      match mapLoop t.chars 0 (fun _ => none) with
      | .error e => .error e
      | .ok m => .ok (.table t m, true :: tableEncode t)

/-- coders/HuffmanCoder.hpp:560-569 `encode`: literals here, everything else by the default encoder (Coder.hpp:52-69).
With an empty alphabet encoding a literal dereferences a null pointer. -/
def encode (ls : List UInt8) : Mode → Rng → Nat → Res (List Bool)
  | .trivial, .literal, v => if ls.isEmpty then .error .ub else .ok (writeInt (v % 256) 8)
  | .table t m, .literal, v => encodeLit t m (v % 256)
  | _, r, v => .ok (bitCoder.enc r v)

/-- a sequence of `encode` calls -/
def encodeAll (ls : List UInt8) (m : Mode) : List Token → Res (List Bool)
  | [] => .ok []
  | (r, v) :: ts =>
    match encode ls m r v with
    | .error e => .error e
    | .ok bs =>
      match encodeAll ls m ts with
      | .error e => .error e
      | .ok rest => .ok (bs ++ rest)

/-- The file written by an `Encoder` for the announced literals `ls` and the calls `ts`. -/
def writeFile (std : StdLib) (ls : List UInt8) (ts : List Token) : Res (List UInt8) :=
  match encoder std ls with
  | .error e => .error e
  | .ok (m, hdr) =>
    match encodeAll ls m ts with
    | .error e => .error e
    | .ok bits => .ok (BitO.toBytes (hdr ++ bits))

/-! ## Decoder -/

/-- read `n` values with `f` -/
def rdMany (f : List Bool → Res (Nat × List Bool)) : Nat → List Bool → Res (List Nat × List Bool)
  | 0, bs => .ok ([], bs)
  | n + 1, bs =>
    match f bs with
    | .error e => .error e
    | .ok (x, bs) =>
      match rdMany f n bs with
      | .error e => .error e
      | .ok (xs, bs) => .ok (x :: xs, bs)

/-- `read_compressed_int<uint8_t>` -/
def rdCInt8 (bs : List Bool) : Res (Nat × List Bool) :=
  match rdCInt 7 bs with
  | .error e => .error e
  | .ok (v, bs) => .ok (v % 256, bs)

/-- coders/HuffmanCoder.hpp:278-290 `huffmantable_decode`: `longest`, `numl`, `ordered_map_from_effective` -/
def tableDecode (bs : List Bool) : Res ((List Nat × List Nat) × List Bool) :=
  match rdCInt8 bs with
  | .error e => .error e
  | .ok (longest, bs) =>
    match rdMany rdCInt8 longest bs with
    | .error e => .error e
    | .ok (numl, bs) =>
      match rdCInt 7 bs with
      | .error e => .error e
      | .ok (n, bs) =>
        match rdMany (fun bs => .ok (rdInt 8 8 bs)) n bs with
        | .error e => .error e
        | .ok (chars, bs) => .ok ((numl, chars), bs)

/-- coders/HuffmanCoder.hpp:426-435 `gen_ordered_codelength`: `i` is the length minus one.  Writing more than
`alphabet_size` entries is undefined, unwritten entries stay undefined; so the number must be right. -/
def orderedLens : Nat → List Nat → List Nat
  | _, [] => []
  | i, x :: numl => List.replicate x (i + 1) ++ orderedLens (i + 1) numl

/-- coders/HuffmanCoder.hpp:369-372: the loop of `gen_prefix_sum_lengths`; `prev` is `ordered_codelengths[i-1]` -/
def prefixLoop : List Nat → Nat → Nat → List Nat → Res (List Nat)
  | [], _, _, ps => .ok ps
  | len :: lens, prev, i, ps =>
    if prev < len then
      match vset ps (len - 1) i with
      | .error e => .error e
      | .ok ps => prefixLoop lens len (i + 1) ps
    else prefixLoop lens len (i + 1) ps

/-- coders/HuffmanCoder.hpp:356-376 `gen_prefix_sum_lengths` -/
def prefixSums (lens : List Nat) (longest : Nat) : Res (List Nat) :=
  match lens with
  | [] => .error .ub
  | len :: lens =>
    if len = 0 then .error .ub
    else
      match vset (List.replicate longest (2 ^ 64 - 1)) (len - 1) 0 with
      | .error e => .error e
      | .ok ps => prefixLoop lens len 1 ps

/-- The decoder's state: `ordered_map_from_effective`, `prefix_sum_lengths`, `firstcodes`; `none` is the null pointer. -/
abbrev DecState := Option (List Nat × List Nat × List Nat)

/-- coders/HuffmanCoder.hpp:584-598 the constructor of `Decoder` -/
def decoder (bs : List Bool) : Res (DecState × List Bool) :=
  let (b, bs) := rdBit bs
  if b = false then .ok (none, bs)
  else
    match tableDecode bs with
    | .error e => .error e
    | .ok ((numl, chars), bs) =>
      let lens := orderedLens 0 numl
      if lens.length ≠ chars.length then .error .ub
      else
        match prefixSums lens numl.length with
        | .error e => .error e
        | .ok ps => .ok (some (chars, ps, firstCodes numl), bs)

/-- coders/HuffmanCoder.hpp:386-390: the loop of `huffman_decode`; `length` counts the rounds done, `first` are the
entries of `firstcodes` from there on. -/
def codeLoop : List Nat → Nat → Nat → List Bool → Res (Nat × Nat × List Bool)
  | [], _, _, _ => .error .ub
  | f :: first, value, length, bs =>
    let (b, bs) := rdBit bs
    let value := (value * 2 + b.toNat) % 2 ^ 64
    if value < f then codeLoop first value (length + 1) bs else .ok (value, length, bs)

/-- coders/HuffmanCoder.hpp:377-397 `huffman_decode` -/
def decodeLit (chars ps first : List Nat) (bs : List Bool) : Res (Nat × List Bool) :=
  match codeLoop first 0 0 bs with
  | .error e => .error e
  | .ok (value, length, bs) =>
    match vget ps length, vget first length with
    | .ok p, .ok f =>
      match vget chars ((p + (value - f)) % 2 ^ 64) with
      | .error e => .error e
      | .ok c => .ok (c, bs)
    | _, _ => .error .ub

/-- coders/HuffmanCoder.hpp:604-611 `decode` -/
def decode : DecState → Rng → List Bool → Res (Nat × List Bool)
  | none, .literal, bs => .ok (rdInt 8 8 bs)
  | some (chars, ps, first), .literal, bs => decodeLit chars ps first bs
  | _, r, bs => bitCoder.dec r bs

/-- The decoder as a coder (nothing is encoded with it). -/
def decCoder (d : DecState) : UCoder := ⟨fun _ _ => [], decode d, fun _ => none⟩

/-- Decode a file with the given ranges. -/
def readFile (rs : List Rng) (bytes : List UInt8) : Res (List Nat × List Bool) :=
  match decoder (bitsOf bytes) with
  | .error e => .error e
  | .ok (d, bs) => (decCoder d).decAll rs bs

end Huff
end Tdc
