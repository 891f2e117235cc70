import Verif.Model.Esp

/-!
# compressors/esp/SLPDepSort.hpp, compressors/esp/SortedSLPCoder.hpp

`size_t` values are natural numbers; the JSON dump, logging and `DCHECK`s are left out.
-/

namespace Tdc
namespace Esp

/-! ## Sorting the rules by their left symbol -/

/-- esp/SLPDepSort.hpp:22-31 `append`: the lists `first_child` and `next_child`, as pairs -/
def dsAppend (s : List Nat × List Nat) (i node : Nat) : Res (List Nat × List Nat) :=
  match s.1[i]? with
  | none => .error .ub
  | some f =>
    if f = i then .ok (s.1.set i node, s.2)
    else if node < s.2.length then .ok (s.1.set i node, s.2.set node f) else .error .ub

/-- esp/SLPDepSort.hpp:37-44: the loop of `for_all` behind element `l`; what it calls `f` with. `fuel` bounds the steps. -/
def dsChain (next : List Nat) : Nat → Nat → Res (List Nat)
  | 0, _ => .error .loop
  | fuel + 1, l =>
    match next[l]? with
    | none => .error .ub
    | some m => if m ≠ l then (dsChain next fuel m).bind fun r => .ok (m :: r) else .ok []

/-- esp/SLPDepSort.hpp:33-46 `for_all` -/
def dsChildren (s : List Nat × List Nat) (i : Nat) : Res (List Nat) :=
  match s.1[i]? with
  | none => .error .ub
  | some l => if l ≠ i then (dsChain s.2 (s.2.length + 1) l).bind fun r => .ok (l :: r) else .ok []

/-- esp/SLPDepSort.hpp:48-55: from the last rule to the first; the argument is the number of rules still to be handled -/
def dsBuild (rules : List (Nat × Nat)) : Nat → List Nat × List Nat → Res (List Nat × List Nat)
  | 0, s => .ok s
  | j + 1, s =>
    match rules[j]? with
    | none => .error .ub
    | some p => (dsAppend s p.1 (j + 256)).bind fun s => dsBuild rules j s

/-- esp/SLPDepSort.hpp:67-86: `counter` and `rename` -/
def dsBfs (s : List Nat × List Nat) : Nat → (queue : List Nat) → (counter : Nat) → (rename : List Nat) → Res (List Nat)
  | _, [], _, rename => .ok rename
  | 0, _ :: _, _, _ => .error .loop
  | fuel + 1, e :: q, counter, rename =>
    (dsChildren s e).bind fun ch =>
      if e < 256 then dsBfs s fuel (q ++ ch) (counter + 1) rename
      else if e - 256 < rename.length then dsBfs s fuel (q ++ ch) (counter + 1) (rename.set (e - 256) (counter - 256)) else .error .ub

/-- esp/SLPDepSort.hpp:101-103, 108-110 -/
def dsRename (rename : List Nat) (e : Nat) : Res Nat :=
  if 255 < e then
    match rename[e - 256]? with
    | none => .error .ub
    | some r => .ok (r + 256)
  else .ok e

/-- esp/SLPDepSort.hpp:98-105: from rule `i` on -/
def dsRules (rename : List Nat) : Nat → List (Nat × Nat) → (out : List (Nat × Nat)) → Res (List (Nat × Nat))
  | _, [], out => .ok out
  | i, p :: rules, out =>
    match rename[i]? with
    | none => .error .ub
    | some r =>
      if r < out.length then
        (dsRename rename p.1).bind fun a => (dsRename rename p.2).bind fun b => dsRules rename (i + 1) rules (out.set r (a, b))
      else .error .ub

/-- esp/SLPDepSort.hpp:7-111 `slp_dep_sort` -/
def depSort (s : SLP) : Res SLP :=
  let n := s.rules.length
  (dsBuild s.rules n (List.range (n + 256), List.range (n + 256))).bind fun l =>
    (dsBfs l (n + 256) (List.range 256) 0 (List.replicate n 0)).bind fun rename =>
      (dsRules rename 0 s.rules (List.replicate n (0, 0))).bind fun rules =>
        (dsRename rename s.root).bind fun root => .ok ⟨rules, root, s.empty⟩

/-! ## The coder -/

/-- A `d_coding`: `encode(rhs, out, bit_width, max_value)`, `decode(rhs, in, bit_width, max_value)` (with the size of `rhs`). -/
structure DCoder where
  enc : (w mx : Nat) → List Nat → Res (List Bool)
  dec : (w mx n : Nat) → List Bool → Res (List Nat × List Bool)

/-- esp/SortedSLPCoder.hpp:110-117: the differences, in unary (`size_t` arithmetic) -/
def unaryDiffs : Nat → List Nat → List Bool
  | _, [] => []
  | last, x :: l => writeUnary ((x + 2 ^ 64 - last) % 2 ^ 64) ++ unaryDiffs x l

/-- esp/SortedSLPCoder.hpp:159-167: `n` numbers; those not read because the stream ends are the 0 of `resize` -/
def rdUnaryDiffs : Nat → Nat → List Bool → Res (List Nat × List Bool)
  | 0, _, bs => .ok ([], bs)
  | n + 1, last, bs =>
    if bs.length = 0 then .ok (List.replicate (n + 1) 0, bs)
    else (rdUnary bs).bind fun x =>
      (rdUnaryDiffs n ((last + x.1) % 2 ^ 64) x.2).bind fun r => .ok ((last + x.1) % 2 ^ 64 :: r.1, r.2)

/-- esp/SortedSLPCoder.hpp:23-124 `encode`: the bits written -/
def sortedEnc (d : DCoder) (s : SLP) : Res (List Bool) :=
  (depSort s).bind fun s =>
    let mx := s.rules.length + 256 - 1
    let w := if s.empty then 0 else bitsFor mx
    let hdr := writeInt w 6 ++ writeInt mx w ++ writeInt s.root w
    if s.empty || decide (s.root < 256) then .ok hdr
    else (d.enc w mx (s.rules.map Prod.snd)).bind fun b => .ok (hdr ++ unaryDiffs 0 (s.rules.map Prod.fst) ++ b)

/-- esp/SortedSLPCoder.hpp:126-174 `decode` -/
def sortedDec (d : DCoder) (bs : List Bool) : Res SLP :=
  let (w, bs) := rdInt 64 6 bs
  let (mx, bs) := rdInt 64 w bs
  let (root, bs) := rdInt 64 w bs
  if w = 0 ∨ root < 256 then .ok ⟨[], root, w == 0⟩
  else
    (rdUnaryDiffs (mx + 1 - 256) 0 bs).bind fun lhs =>
      (d.dec w mx (mx + 1 - 256) lhs.2).bind fun rhs => .ok ⟨lhs.1.zip rhs.1, root, w == 0⟩

/-- EspCompressor.hpp:32-70 `compress`, with `SortedSLPCoder` -/
def compressSorted (d : DCoder) (iter : List ((Nat × Nat) × Nat) → List ((Nat × Nat) × Nat)) (text : List UInt8) : Res (List UInt8) :=
  (generate iter text).bind fun s => (sortedEnc d s).bind fun b => .ok (BitO.toBytes b)

/-- EspCompressor.hpp:72-90 `decompress`, with `SortedSLPCoder` -/
def decompressSorted (d : DCoder) (bytes : List UInt8) : Res (List UInt8) := (sortedDec d (bitsOf bytes)).bind SLP.derive

end Esp
end Tdc
