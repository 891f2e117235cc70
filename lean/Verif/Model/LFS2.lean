import Verif.Model.LFSTree

/-!
# compressors/lfs/{LFS2Compressor,LFS2BSTCompressor}.hpp

Longest-first substitution with rules that refer to each other.  Line numbers are those of LFS2Compressor.hpp unless stated otherwise; the two files
differ in the suffix tree, in the container of the lists of positions and in the option `exact`.  The suffix tree is a parameter as in
`Model/LFSTree.lean`.  Not modelled: the depth of the grammar and the quantiles, which are only logged (lines 323-368).
`uint` has 32 bits; sums of a position and a length within the text are not reduced (texts below 4 GiB, hypothesis of the theorems).
-/

namespace Tdc
namespace Lfs2

open Lfs

/-- the arrays over the text and the rules: `non_terminal_symbols`, `fl_offsets`, `first_layer_nts`, `second_layer_nts`, `second_layer_dead` -/
structure G where
  dict : List (Nat × Nat)
  off : List Nat
  first : List Nat
  second : List Nat
  sdead : List Bool
  deriving DecidableEq, Repr

/-- lines 244-245, 276-278: the rule of the symbol in the first layer that covers position `p` with offset `o > 0` -/
def parent (g : G) (p o : Nat) : Res (Nat × Nat) := (vget g.first (sub32 p (o - 1))).bind fun k => vget g.dict (sub32 k 1)

/-- lines 230-254: the occurrences outside of the first layer and those inside a symbol of it; `next = last + i` (0 at first) -/
def viable (g : G) (len : Nat) : Nat → List Nat → Res (List Nat × List Nat)
  | _, [] => .ok ([], [])
  | next, p :: ps =>
    if next ≤ p then
      (vget g.off p).bind fun o =>
        if o = 0 then
          (vget g.off (p + len - 1)).bind fun e =>
            if e = 0 then (viable g len (p + len) ps).bind fun r => .ok (p :: r.1, r.2) else viable g len next ps
        else
          (parent g p o).bind fun nt =>
            if nt.2 ≥ o - 1 + len then (viable g len next ps).bind fun r => .ok (r.1, p :: r.2) else viable g len next ps
    else viable g len next ps

/-- lines 268-270: offsets of a symbol of length `k` from `p` on; `j` have been written -/
def writeOff (p : Nat) : Nat → Nat → List Nat → Res (List Nat)
  | 0, _, off => .ok off
  | k + 1, j, off => (vset off (p + j) (j + 1)).bind fun o => writeOff p k (j + 1) o

/-- lines 265-271: the new symbol in the first layer -/
def mark1 (num len : Nat) : List Nat → List Nat → List Nat → Res (List Nat × List Nat)
  | [], first, off => .ok (first, off)
  | p :: ps, first, off => (vset first p num).bind fun f => (writeOff p len 0 off).bind fun o => mark1 num len ps f o

/-- lines 276-289: one occurrence in the second layer -/
def place (num len p : Nat) (g : G) : Res G :=
  (vget g.off p).bind fun o => (parent g p o).bind fun nt =>
    (vget g.sdead (nt.1 + o - 1)).bind fun a =>
      if a then .ok g
      else
        (vget g.sdead (nt.1 + o - 1 + len - 1)).bind fun b =>
          if b then .ok g
          else
            (vset g.second (nt.1 + o - 1) num).bind fun s => (kill g.sdead (nt.1 + o - 1) len).bind fun d => .ok { g with second := s, sdead := d }

/-- lines 275-290: the new symbol in the second layer -/
def mark2 (num len : Nat) : List Nat → G → Res G
  | [], g => .ok g
  | p :: ps, g => (place num len p g).bind fun g' => mark2 num len ps g'

/-- lines 229-297: a rule for the occurrences `ps` of a string of length `len`; `num` is `nts_number` -/
def substitute (num len : Nat) (ps : List Nat) (g : G) : Res (Nat × G) :=
  (viable g len 0 ps).bind fun r =>
    if r.1.length ≥ 1 ∧ r.1.length + r.2.length ≥ 2 then
      (mark1 num len r.1 g.first g.off).bind fun x =>
        (mark2 num len r.2 { g with dict := g.dict ++ [(r.1.headD 0, len)], first := x.1, off := x.2 }).bind fun g' => .ok (num + 1, g')
    else .ok (num, g)

/-- lists of positions, bins, `nts_number`, grammar -/
structure W where
  begins : Begins
  bins : List (List Nat)
  num : Nat
  g : G
  deriving DecidableEq, Repr

/-- lines 170-317, LFS2BSTCompressor.hpp:167-313: node `v` from bin `len`; `map` tells the container (LFS2BSTCompressor.hpp: a map, never `exact`).
`readd 0` is lines 300-311. -/
def step (map exact : Bool) (t : Tree) (len v : Nat) (w : W) : Res W :=
  (gather (fun _ => .ok true) map t v w.begins).bind fun x =>
    if x.1.length ≥ 2 then
      (if spread x.1 ≥ len then (substitute w.num len x.1 w.g).bind fun r => .ok ⟨x.2, w.bins, r.1, r.2⟩
      else if exact then (readd 0 t len v (spread x.1) w.bins).bind fun b => .ok ⟨x.2, b, w.num, w.g⟩
      else .ok { w with begins := x.2 })
    else .ok { w with begins := x.2 }

/-- lines 170-172: the nodes of a bin are taken from its end -/
def popBin (st : Nat → Nat → W → Res W) (len : Nat) : List Nat → W → Res W
  | [], w => .ok w
  | v :: vs, w => (st len v w).bind fun w' => popBin st len vs w'

/-- line 167: `for(uint i = bins.size()-1; i>=min_lrf; i--)`; for `min_lrf = 0` the counter wraps around behind bin 0 and `bins[UINT_MAX]` is read.
The bin is emptied here before its nodes are visited, in the code node by node; nodes are only added to lower bins. -/
def popBins (st : Nat → Nat → W → Res W) (minLrf : Nat) : Nat → W → Res W
  | 0, w =>
    if minLrf = 0 then ((vget w.bins 0).bind fun vs => popBin st 0 vs.reverse { w with bins := w.bins.set 0 [] }).bind fun _ => .error .ub else .ok w
  | len + 1, w =>
    if minLrf ≤ len + 1 then
      (vget w.bins (len + 1)).bind fun vs =>
        (popBin st (len + 1) vs.reverse { w with bins := w.bins.set (len + 1) [] }).bind fun w' => popBins st minLrf len w'
    else .ok w

/-- what an object keeps between two calls of `compress`: the rules, the bins, the lists of positions -/
structure Members where
  dict : List (Nat × Nat)
  bins : List (List Nat)
  begins : Begins
  deriving DecidableEq, Repr

/-- a new object -/
def fresh : Members := ⟨[], [], []⟩

/-- `std::vector::resize` -/
def resize {α : Type} (l : List α) (k : Nat) (a : α) : List α := l.take k ++ List.replicate (k - l.length) a

/-- lines 121-123: the sentinel is cut off -/
def strip (T : List UInt8) : Nat → Res Nat
  | 0 => .error .ub
  | n + 1 => (vget T n).bind fun c => if c = 0 then strip T n else .ok (n + 1)

/-- lines 106-109: the arrays over a text of `n` characters -/
def startG (dict : List (Nat × Nat)) (n : Nat) : G := ⟨dict, List.replicate n 0, List.replicate n 0, List.replicate n 0, List.replicate n false⟩

/-- the two compressors -/
inductive Kind where
  | lfs2 (exact : Bool)
  | lfs2bst
  deriving DecidableEq, Repr

/-- lines 113-321, LFS2BSTCompressor.hpp:133-317: the grammar -/
def compute (K : Kind) (minLrf : Nat) (t : Tree) (T : List UInt8) (m : Members) : Res (G × Members) :=
  if T.length ≥ minLrf then
    match K with
    | .lfs2 exact =>
      (strip T T.length).bind fun _ => (fillBins growLoop false t t.order (resize m.bins 200 [])).bind fun b =>
        (popBins (step false exact t) minLrf (b.length - 1) ⟨resize m.begins t.nodes.length none, b, 1, startG m.dict T.length⟩).bind fun w =>
          .ok (w.g, ⟨w.g.dict, w.bins, w.begins⟩)
    | .lfs2bst =>
      (fillBins growLoop true t t.order (resize m.bins 200 [])).bind fun b =>
        (popBins (step true false t) minLrf (maxDepth t)
          ⟨m.begins ++ List.replicate (t.nodes.length - m.begins.length) none, b.take (maxDepth t + 1), 1, startG m.dict T.length⟩).bind fun w =>
          .ok (w.g, ⟨w.g.dict, w.bins, w.begins⟩)
  else .ok (startG m.dict T.length, m)

/-! ## encoding -/

/-- lines 378-382, 387-392: the characters at the positions `pos, …, pos + k - 1` whose flag is 0 -/
def litsAt (T : List UInt8) (flag : List Nat) : Nat → Nat → Res (List UInt8)
  | 0, _ => .ok []
  | k + 1, pos =>
    (vget flag pos).bind fun o =>
      if o = 0 ∧ pos < T.length then (vget T pos).bind fun c => (litsAt T flag k (pos + 1)).bind fun r => .ok (c :: r) else litsAt T flag k (pos + 1)

/-- lines 383-393: of all rules -/
def ruleLits (T : List UInt8) (second : List Nat) : List (Nat × Nat) → Res (List UInt8)
  | [] => .ok []
  | r :: rs => (litsAt T second r.2 r.1).bind fun a => (ruleLits T second rs).bind fun b => .ok (a ++ b)

/-- lines 376-393: the literals announced -/
def literals (T : List UInt8) (g : G) : Res (List UInt8) :=
  (litsAt T g.off T.length 0).bind fun a => (ruleLits T g.second g.dict).bind fun b => .ok (a ++ b)

/-- lines 454-472, 489-503: the positions from `pos` to `stop` with the symbols of `layer`; every round moves on by at least one position unless a
rule is empty -/
def blockToks (T : List UInt8) (dict : List (Nat × Nat)) (layer : List Nat) (stop : Nat) : Nat → Nat → Res (List Tok)
  | 0, pos => if pos < stop then .error .loop else .ok []
  | fuel + 1, pos =>
    if pos < stop then
      (vget layer pos).bind fun m =>
        if m > 0 then
          (vget dict (m - 1)).bind fun r => (blockToks T dict layer stop fuel (pos + r.2)).bind fun ts =>
            .ok (.lit .bit 1 :: .lit (.range 0 dict.length) m :: ts)
        else
          (vget T pos).bind fun c => (blockToks T dict layer stop fuel (pos + 1)).bind fun ts => .ok (.lit .bit 0 :: .lit .literal c.toNat :: ts)
    else .ok []

/-- lines 447-475: the rules in the given order -/
def dictToks2 (T : List UInt8) (dict : List (Nat × Nat)) (second : List Nat) : List (Nat × Nat) → Res (List Tok)
  | [] => .ok []
  | r :: rs => (blockToks T dict second (r.1 + r.2) r.2 r.1).bind fun a => (dictToks2 T dict second rs).bind fun b => .ok (a ++ b)

/-- lines 411-503: all calls; the rules are written from the last to the first -/
def encodeToks2 (T : List UInt8) (g : G) : Res (List Tok) :=
  (dictToks2 T g.dict g.second g.dict.reverse).bind fun d => (blockToks T g.dict g.first T.length T.length 0).bind fun s => .ok (lenToks g.dict ++ d ++ s)

/-- lines 94-525 `compress` on an object with the members `m` -/
def compress (K : Kind) (minLrf : Nat) (std : StdLib) (lc : LitCoder) (c1 : UCoder) (t : Tree) (m : Members) (T : List UInt8) : Res (List UInt8 × Members) :=
  (compute K minLrf t T m).bind fun x => (literals T x.1).bind fun ls => (encodeToks2 T x.1).bind fun ts => (write std lc c1 ls ts).bind fun bytes =>
    .ok (bytes, x.2)

/-! ## decoding -/

/-- lines 573-603: the string of a rule; `size` is `size_cur` (0 if negative).  A symbol without rule ends it.  Every round reads a bit. -/
def decRule (d2 : Dec) (lens : List Nat) (dict : List (List UInt8)) : Nat → Nat → List Bool → Res (List UInt8 × List Bool)
  | 0, _, _ => .error .loop
  | fuel + 1, size, bs =>
    if size > 0 then
      (d2 .bit bs).bind fun b =>
        if b.1 = 0 then
          (d2 .literal b.2).bind fun v => (decRule d2 lens dict fuel (size - 1) v.2).bind fun r => .ok (UInt8.ofNat v.1 :: r.1, r.2)
        else
          (d2 (.range 0 lens.length) b.2).bind fun v =>
            if sub32 (u32 v.1) 1 < dict.length then
              (vget dict (sub32 (u32 v.1) 1)).bind fun s => (vget lens (sub32 (u32 v.1) 1)).bind fun l =>
                (decRule d2 lens dict fuel (size - l) v.2).bind fun r => .ok (s ++ r.1, r.2)
            else .ok ([], v.2)
    else .ok ([], bs)

/-- lines 571-609: the rules `i - 1, …, 0` -/
def decRules (d2 : Dec) (lens : List Nat) : Nat → List (List UInt8) → List Bool → Res (List (List UInt8) × List Bool)
  | 0, dict, bs => .ok (dict, bs)
  | i + 1, dict, bs =>
    (vget lens i).bind fun l => (decRule d2 lens dict (bs.length + 1) l bs).bind fun s => (vset dict i s.1).bind fun d => decRules d2 lens i d s.2

/-- lines 612-637: the start symbol -/
def decText2 (d2 : Dec) (dict : List (List UInt8)) : Nat → List Bool → Res (List UInt8)
  | 0, _ => .error .loop
  | fuel + 1, bs =>
    if bs.isEmpty then .ok []
    else
      (d2 .bit bs).bind fun b =>
        if b.1 = 0 then (d2 .literal b.2).bind fun v => (decText2 d2 dict fuel v.2).bind fun r => .ok (UInt8.ofNat v.1 :: r)
        else (d2 (.range 0 dict.length) b.2).bind fun v => (decText2 d2 dict fuel v.2).bind fun r => .ok (dict.getD (sub32 (u32 v.1) 1) [] ++ r)

/-- lines 540-637 behind the header of the literal coder -/
def decodeBits2 (d1 d2 : Dec) (bs : List Bool) : Res (List UInt8) :=
  (decLens d1 bs).bind fun ls => (decRules d2 ls.1 ls.1.length (List.replicate ls.1.length []) ls.2).bind fun d => decText2 d2 d.1 (bs.length + 1) d.2

/-- lines 527-638 `decompress` -/
def decompress (lc : LitCoder) (c1 : UCoder) (bytes : List UInt8) : Res (List UInt8) := read lc (decodeBits2 c1.dec) bytes

end Lfs2
end Tdc
