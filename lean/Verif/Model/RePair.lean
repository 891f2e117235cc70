import Verif.Model.Trie
import Verif.Model.Huffman

/-!
# compressors/RePairCompressor.hpp

`sym_t` is `uint32_t`, `digram_t` is `uint64_t`, `len_t` is `uint32_t`. A digram is the number `left * 2^32 + right`.
-/

namespace Tdc
namespace RePair

/-- RePairCompressor.hpp:23-25 -/
def digram (l r : Nat) : Nat := l * 2 ^ 32 + r

/-- RePairCompressor.hpp:27-29 -/
def left (di : Nat) : Nat := di / 2 ^ 32

/-- RePairCompressor.hpp:31-33 -/
def right (di : Nat) : Nat := di % 2 ^ 32

/-- RePairCompressor.hpp:21 -/
def sigma : Nat := 256

/-- `v[i] = x`; out of bounds is undefined -/
def vput (l : List Nat) (i x : Nat) : Res (List Nat) := if i < l.length then .ok (l.set i x) else .error .ub

/-- `n - 1` in `len_t` (irreducible for the prover's sake only) -/
@[irreducible] def pred32 (n : Nat) : Nat := (n + (2 ^ 32 - 1)) % 2 ^ 32

/-- RePairCompressor.hpp:127-146: count digrams (`std::unordered_map` as a function), keep the first to reach the largest count.
`fuel` bounds the rounds; the loop moves right. -/
def countLoop (n : Nat) (text next : List Nat) : Nat → Nat → (Nat → Nat) → Nat → Nat → Res (Nat × Nat)
  | 0, _, _, _, _ => .error .loop
  | fuel + 1, i, count, mx, mc =>
    if i < pred32 n then
      (vget next i).bind fun j =>
        if n ≤ j then .ok (mx, mc)
        else
          (vget text i).bind fun a => (vget text j).bind fun b =>
            let di := digram a b
            let c := count di + 1
            let count := fun d => if d = di then c else count d
            if c > mc then countLoop n text next fuel j count di c else countLoop n text next fuel j count mx mc
    else .ok (mx, mc)

/-- RePairCompressor.hpp:155-168: replace the digram `mx` by `s`, from left to right -/
def replaceLoop (n mx s : Nat) : Nat → Nat → List Nat → List Nat → Res (List Nat × List Nat)
  | 0, _, _, _ => .error .loop
  | fuel + 1, i, text, next =>
    if i < pred32 n then
      (vget next i).bind fun j =>
        if n ≤ j then .ok (text, next)
        else
          (vget text i).bind fun a => (vget text j).bind fun b =>
            if digram a b = mx then
              (vput text i s).bind fun text => (vget next j).bind fun k => (vput next i k).bind fun next =>
                replaceLoop n mx s fuel k text next
            else replaceLoop n mx s fuel j text next
    else .ok (text, next)

/-- RePairCompressor.hpp:116-173: the `do`-loop -/
def rounds (n maxRules : Nat) : Nat → List Nat → List Nat → List Nat → Res (List Nat × List Nat × List Nat)
  | 0, _, _, _ => .error .loop
  | fuel + 1, text, next, g =>
    (countLoop n text next (n + 1) 0 (fun _ => 0) 0 0).bind fun m =>
      if m.2 > 1 then
        (replaceLoop n m.1 (sigma + g.length) (n + 1) 0 text next).bind fun r =>
          if (g ++ [m.1]).length < maxRules then rounds n maxRules fuel r.1 r.2 (g ++ [m.1]) else .ok (r.1, r.2, g ++ [m.1])
      else .ok (text, next, g)

/-- RePairCompressor.hpp:92-93: option `max_rules`, 0 = unlimited (`SIZE_MAX`) -/
def maxRules (opt : Nat) : Nat := if opt = 0 then 2 ^ 64 - 1 else opt

/-- RePairCompressor.hpp:99-173: the text and links, and the grammar, at the end -/
def grammar (opt : Nat) (text : List UInt8) : Res (List Nat × List Nat × List Nat) :=
  rounds text.length (maxRules opt) (text.length + 1) (text.map UInt8.toNat) (List.range' 1 text.length) []

/-- RePairCompressor.hpp:242-252: `for(i = 0; i < n; i = next[i])`, the symbols -/
def walk (n : Nat) (text next : List Nat) : Nat → Nat → Res (List Nat)
  | 0, _ => .error .loop
  | fuel + 1, i =>
    if i < n then
      (vget text i).bind fun x => (vget next i).bind fun j => (walk n text next fuel j).bind fun r => .ok (x :: r)
    else .ok []

/-- RePairCompressor.hpp:209-217 `encode_sym` with `Range(k)` -/
def symToks (k x : Nat) : List Token :=
  if x < sigma then [(.bit, 0), (.literal, x)] else [(.bit, 1), (.range 0 k, x - sigma)]

/-- RePairCompressor.hpp:223-239: rules from number `i` on -/
def ruleToks : Nat → List Nat → List Token
  | _, [] => []
  | i, di :: g => symToks i (left di) ++ symToks i (right di) ++ ruleToks (i + 1) g

/-- RePairCompressor.hpp:205-252: all `encode` calls -/
def tokens (g syms : List Nat) : List Token :=
  (.range 0 (2 ^ 32 - 1), g.length) :: (ruleToks 0 g ++ syms.flatMap (symToks g.length))

/-- RePairCompressor.hpp:88-258 `compress`: the `encode` calls -/
def compressToks (opt : Nat) (text : List UInt8) : Res (List Token) :=
  (grammar opt text).bind fun r => (walk text.length r.1 r.2.1 (text.length + 1) 0).bind fun syms => .ok (tokens r.2.2 syms)

/-- RePairCompressor.hpp:88-258 `compress` with a coder that needs no literals -/
def compress (c : UCoder) (opt : Nat) (text : List UInt8) : Res (List UInt8) :=
  (compressToks opt text).bind fun ts => .ok (BitO.toBytes (c.encAll ts))

/-- RePairCompressor.hpp:35-78 `Literals`: what is announced to the coder: every symbol of the text, truncated to a byte, then the
terminals on the right sides of the rules -/
def announced (g syms : List Nat) : List UInt8 :=
  syms.map UInt8.ofNat ++ g.flatMap fun di =>
    (if left di < sigma then [UInt8.ofNat (left di)] else []) ++ (if right di < sigma then [UInt8.ofNat (right di)] else [])

/-- RePairCompressor.hpp:88-258 `compress` with the Huffman coder -/
def compressHuff (std : StdLib) (opt : Nat) (text : List UInt8) : Res (List UInt8) :=
  (grammar opt text).bind fun r => (walk text.length r.1 r.2.1 (text.length + 1) 0).bind fun syms =>
    Huff.writeFile std (announced r.2.2 syms) (tokens r.2.2 syms)

/-- RePairCompressor.hpp:283-292 `decode_sym` -/
def decSym (c : UCoder) (k : Nat) (bs : List Bool) : Res (Nat × List Bool) :=
  (c.dec .bit bs).bind fun b =>
    if b.1 ≠ 0 then (c.dec (.range 0 k) b.2).bind fun v => .ok ((sigma + v.1 % 2 ^ 32) % 2 ^ 32, v.2)
    else (c.dec .literal b.2).bind fun v => .ok (v.1 % 256, v.2)

/-- RePairCompressor.hpp:298-303: `num` rules to read, `i` = `grammar.size()` -/
def decRules (c : UCoder) : Nat → Nat → List Bool → Res (List Nat × List Bool)
  | 0, _, bs => .ok ([], bs)
  | num + 1, i, bs =>
    (decSym c i bs).bind fun l => (decSym c i l.2).bind fun r => (decRules c num (i + 1) r.2).bind fun g =>
      .ok (digram l.1 r.1 :: g.1, g.2)

/-- RePairCompressor.hpp:261-271 `decode`: a recursion deeper than the number of rules is cyclic -/
def expand (g : List Nat) : Nat → Nat → Res (List UInt8)
  | 0, _ => .error .loop
  | fuel + 1, x =>
    if x < sigma then .ok [UInt8.ofNat x]
    else
      (vget g (x - sigma)).bind fun di => (expand g fuel (left di)).bind fun a => (expand g fuel (right di)).bind fun b => .ok (a ++ b)

/-- RePairCompressor.hpp:325-327; `fuel` bounds the rounds, each reads a bit -/
def decText (c : UCoder) (g : List Nat) : Nat → List Bool → Res (List UInt8)
  | 0, _ => .error .loop
  | fuel + 1, bs =>
    if bs.isEmpty then .ok []
    else
      (decSym c g.length bs).bind fun x => (expand g (g.length + 1) x.1).bind fun w => (decText c g fuel x.2).bind fun r => .ok (w ++ r)

/-- RePairCompressor.hpp:278-328 `decompress` from the bits after the header of the coder -/
def decBits (c : UCoder) (bs : List Bool) : Res (List UInt8) :=
  (c.dec (.range 0 (2 ^ 32 - 1)) bs).bind fun num => (decRules c num.1 0 num.2).bind fun g => decText c g.1 (bs.length + 1) g.2

/-- RePairCompressor.hpp:278-328 `decompress` -/
def decompress (c : UCoder) (bytes : List UInt8) : Res (List UInt8) := decBits c (bitsOf bytes)

/-- RePairCompressor.hpp:278-328 `decompress` with the Huffman coder -/
def decompressHuff (bytes : List UInt8) : Res (List UInt8) :=
  (Huff.decoder (bitsOf bytes)).bind fun d => decBits (Huff.decCoder d.1) d.2

end RePair
end Tdc
