import Verif.Model.LFSCoding
import Verif.Model.TextDS

/-!
# compressors/lfs/{LFSCompressor,EncodeStrategy,ESAStrategy}.hpp

`uint` has 32 bits; positions and lengths are below the length of the text, which is below 2^32 (hypothesis of the theorems), so that sums of a
position and an offset within the text are not reduced here.  A rule is a pair (position of an occurrence, length); a non-terminal in the text is
a triple (position, number of the rule, length).
-/

namespace Tdc
namespace Lfs

/-! ## EncodeStrategy -/

/-- lfs/EncodeStrategy.hpp:120-123: the characters `in[p], …, in[p + k - 1]` -/
def readChars (T : List UInt8) (p : Nat) : Nat → Res (List UInt8)
  | 0 => .ok []
  | k + 1 => (vget T p).bind fun c => (readChars T (p + 1) k).bind fun r => .ok (c :: r)

/-- lfs/EncodeStrategy.hpp:110-126: the characters of all rules -/
def dictToks (T : List UInt8) : List (Nat × Nat) → Res (List Tok)
  | [] => .ok []
  | (p, l) :: rest =>
    (readChars T p l).bind fun cs => (dictToks T rest).bind fun r => .ok (cs.map (fun c => .lit .literal c.toNat) ++ r)

/-- a character of the start symbol (lfs/EncodeStrategy.hpp:156-157, 182-183) -/
def charToks (cs : List UInt8) : List Tok := cs.flatMap fun c => [.lit .bit 0, .lit .literal c.toNat]

/-- lfs/EncodeStrategy.hpp:137-189: the start symbol; `k` is the number of rules, `pos` the position in the text -/
def startToks (T : List UInt8) (k : Nat) : Nat → List (Nat × Nat × Nat) → Res (List Tok)
  | pos, [] => (readChars T pos (T.length - pos)).bind fun cs => .ok (charToks cs)
  | pos, (s, n, l) :: rest =>
    (readChars T pos (s - pos)).bind fun cs =>
      (startToks T k (max pos s + l) rest).bind fun r => .ok (charToks cs ++ .lit .bit 1 :: .lit (.range 0 k) n :: r)

/-- lfs/EncodeStrategy.hpp:58-190 `encode`: all calls -/
def encodeToks (T : List UInt8) (dict : List (Nat × Nat)) (nts : List (Nat × Nat × Nat)) : Res (List Tok) :=
  (dictToks T dict).bind fun d => (startToks T dict.length 0 nts).bind fun s => .ok (lenToks dict ++ d ++ s)

/-- lfs/EncodeStrategy.hpp:233-236: `k` characters -/
def decChars (d2 : Dec) : Nat → List Bool → Res (List UInt8 × List Bool)
  | 0, bs => .ok ([], bs)
  | k + 1, bs => (d2 .literal bs).bind fun v => (decChars d2 k v.2).bind fun r => .ok (UInt8.ofNat v.1 :: r.1, r.2)

/-- lfs/EncodeStrategy.hpp:229-238: the strings of the rules -/
def decDict (d2 : Dec) : List Nat → List Bool → Res (List (List UInt8) × List Bool)
  | [], bs => .ok ([], bs)
  | l :: ls, bs => (decChars d2 l bs).bind fun s => (decDict d2 ls s.2).bind fun r => .ok (s.1 :: r.1, r.2)

/-- lfs/EncodeStrategy.hpp:241-262: the start symbol; a symbol without rule writes nothing. `fuel` bounds the rounds, each reads a bit. -/
def decText (d2 : Dec) (dict : List (List UInt8)) : Nat → List Bool → Res (List UInt8)
  | 0, _ => .error .loop
  | fuel + 1, bs =>
    if bs.isEmpty then .ok []
    else
      (d2 .bit bs).bind fun b =>
        if b.1 = 0 then (d2 .literal b.2).bind fun v => (decText d2 dict fuel v.2).bind fun r => .ok (UInt8.ofNat v.1 :: r)
        else (d2 (.range 0 dict.length) b.2).bind fun v => (decText d2 dict fuel v.2).bind fun r => .ok (dict.getD (u32 v.1) [] ++ r)

/-- lfs/EncodeStrategy.hpp:192-264 `decode` behind the header of the literal coder -/
def decodeBits (d1 d2 : Dec) (bs : List Bool) : Res (List UInt8) :=
  (decLens d1 bs).bind fun ls => (decDict d2 ls.1 ls.2).bind fun d => decText d2 d.1 (bs.length + 1) d.2

/-! ## ESAStrategy -/

/-- lfs/ESAStrategy.hpp:13 -/
def minLrf : Nat := 2

/-- lfs/ESAStrategy.hpp:105-113: the largest distance among the suffixes with a longer common prefix above; `diff a b` stands for
`std::abs((long)(a - b))` stored in a `uint`, whose value for `a < b` depends on the integer type of the suffix array -/
def altDif (diff : Nat → Nat → Nat) (A : TextArrays) (si fl : Nat) : Nat → Nat → Res Nat
  | 0, dif => .ok dif
  | j + 1, dif =>
    (vget A.lcp (j + 1)).bind fun l =>
      if l > fl then (vget A.sa (j + 1)).bind fun sj => altDif diff A si fl j (if diff sj si > dif then diff sj si else dif)
      else .ok dif

/-- lfs/ESAStrategy.hpp:95-116: the length of the factor of rank `i` -/
def factorLen (diff : Nat → Nat → Nat) (A : TextArrays) (i l : Nat) : Res Nat :=
  (vget A.sa (i - 1)).bind fun p => (vget A.sa i).bind fun s =>
    (altDif diff A s (min l (diff p s)) (i - 1) (diff p s)).bind fun dif => .ok (min l dif)

/-- lfs/ESAStrategy.hpp:86-122: the bins, `k` ranks from `i` on; the bins are lists of ranks, `max` grows them -/
def bins (diff : Nat → Nat → Nat) (A : TextArrays) : Nat → Nat → List (List Nat) → Res (List (List Nat))
  | 0, _, b => .ok b
  | k + 1, i, b =>
    (vget A.lcp i).bind fun l =>
      if l ≥ minLrf then
        (factorLen diff A i l).bind fun f =>
          (vget (b ++ List.replicate (l + 1 - b.length) []) f).bind fun q =>
            bins diff A k (i + 1) ((b ++ List.replicate (l + 1 - b.length) []).set f (q ++ [i]))
      else bins diff A k (i + 1) b

/-- lfs/ESAStrategy.hpp:176-178, 190-192: `while(!dead[p + len - shorter_dif]) shorter_dif--;` (0 would read behind the factor) -/
def shorter (dead : List Bool) (p len : Nat) : Nat → Res Nat
  | 0 => .error .ub
  | d + 1 => (vget dead (p + len - (d + 1))).bind fun b => if b then .ok (d + 1) else shorter dead p len d

/-- lfs/ESAStrategy.hpp:171-179 (and 185-193): look at the occurrence `p`; the positions so far and `shorter_dif` -/
def visit (dead : List Bool) (len p : Nat) (st : List Nat × Nat) : Res (List Nat × Nat) :=
  (vget dead p).bind fun a => (vget dead (p + len - 1)).bind fun b =>
    if !a && !b then .ok (st.1 ++ [p], st.2)
    else if !a && b then (shorter dead p len st.2).bind fun d => .ok (st.1, d)
    else .ok st

/-- lfs/ESAStrategy.hpp:170-182: the occurrences above -/
def upLoop (A : TextArrays) (dead : List Bool) (len : Nat) : Nat → List Nat × Nat → Res (List Nat × Nat)
  | 0, st => (vget A.lcp 0).bind fun l => if l ≥ len then .error .ub else .ok st
  | i + 1, st =>
    (vget A.lcp (i + 1)).bind fun l =>
      if l ≥ len then (vget A.sa i).bind fun p => (visit dead len p st).bind fun st' => upLoop A dead len i st' else .ok st

/-- lfs/ESAStrategy.hpp:183-195: the occurrences below; `k = lcp.size() - i` -/
def downLoop (A : TextArrays) (dead : List Bool) (len : Nat) : Nat → Nat → List Nat × Nat → Res (List Nat × Nat)
  | 0, _, st => .ok st
  | k + 1, i, st =>
    (vget A.lcp i).bind fun l =>
      if l ≥ len then (vget A.sa i).bind fun p => (visit dead len p st).bind fun st' => downLoop A dead len k (i + 1) st' else .ok st

/-- lfs/ESAStrategy.hpp:30-44: greedy selection from the sorted positions; `next` is `last + length` (0 at first, by wrap around) -/
def greedy (len : Nat) : Nat → List Nat → List Nat
  | _, [] => []
  | next, p :: ps => if next ≤ p then p :: greedy len (p + len) ps else greedy len next ps

/-- `std::sort` of positions -/
def sortPos (l : List Nat) : List Nat := l.mergeSort (fun a b => a ≤ b)

/-- lfs/ESAStrategy.hpp:24-46 `select_starting_positions` -/
def select (len : Nat) (ps : List Nat) : List Nat := greedy len 0 (sortPos ps)

/-- mark `[p, p + k)` as dead -/
def kill (dead : List Bool) (p : Nat) : Nat → Res (List Bool)
  | 0 => .ok dead
  | k + 1 => (vset dead p true).bind fun d => kill d (p + 1) k

/-- lfs/ESAStrategy.hpp:207-216: mark all selected occurrences -/
def killAll (len : Nat) : List Nat → List Bool → Res (List Bool)
  | [], dead => .ok dead
  | p :: ps, dead => (kill dead p len).bind fun d => killAll len ps d

/-- the dictionary, the non-terminals in the text and the dead positions -/
structure St where
  dict : List (Nat × Nat)
  nts : List (Nat × Nat × Nat)
  dead : List Bool
  deriving DecidableEq, Repr

/-- lfs/ESAStrategy.hpp:206-219: a new rule for the occurrence `p` and the selected occurrences -/
def addRule (len p : Nat) (sel : List Nat) (s : St) : Res St :=
  (killAll len sel s.dead).bind fun dead =>
    .ok ⟨s.dict ++ [(p, len)], s.nts ++ sel.map (fun q => (q, s.dict.length, len)), dead⟩

/-- lfs/ESAStrategy.hpp:152-222: one entry of a bin -/
def entry (A : TextArrays) (len i : Nat) (s : St) : Res St :=
  (upLoop A s.dead len i ([], len)).bind fun u => (downLoop A s.dead len (A.lcp.length - i) i u).bind fun d =>
    if d.1.length ≥ 2 then
      (if (select len d.1).length ≥ 2 then (vget A.sa i).bind fun p => addRule len p (select len d.1) s else .ok s)
    else .ok s

/-- lfs/ESAStrategy.hpp:150-223: the entries of one bin -/
def bin (A : TextArrays) (len : Nat) : List Nat → St → Res St
  | [], s => .ok s
  | i :: is, s => (entry A len i s).bind fun s' => bin A len is s'

/-- lfs/ESAStrategy.hpp:149-224: the bins from length `len` down to `min_lrf` -/
def allBins (A : TextArrays) (b : List (List Nat)) : Nat → St → Res St
  | 0, s => .ok s
  | len + 1, s => if len + 1 ≥ minLrf then (vget b (len + 1)).bind fun is => (bin A (len + 1) is s).bind fun s' => allBins A b len s' else .ok s

/-- the order of `std::tuple<uint,uint,uint>` -/
def ntLe (a b : Nat × Nat × Nat) : Bool := decide (a.1 < b.1 ∨ (a.1 = b.1 ∧ (a.2.1 < b.2.1 ∨ (a.2.1 = b.2.1 ∧ a.2.2 ≤ b.2.2))))

/-- lfs/ESAStrategy.hpp:64-234 `compute_rules`, given the arrays; `n = t.size()` -/
def esaRules (diff : Nat → Nat → Nat) (A : TextArrays) (n : Nat) : Res (List (Nat × Nat) × List (Nat × Nat × Nat)) :=
  (bins diff A (A.lcp.length - 1) 1 []).bind fun b =>
    if b.length < minLrf then .ok ([], [])
    else (allBins A b (b.length - 1) ⟨[], [], List.replicate n false⟩).bind fun s => .ok (s.dict, s.nts.mergeSort ntLe)

/-! ## LFSCompressor -/

/-- lfs/LFSCompressor.hpp:55-94 `compress` with the strategy `rules` (run if the text has at least two characters); the literals announced are
the text -/
def compressWith (std : StdLib) (lc : LitCoder) (c1 : UCoder) (T : List UInt8) (rules : Res (List (Nat × Nat) × List (Nat × Nat × Nat))) :
    Res (List UInt8) :=
  (if T.length > 1 then rules else .ok ([], [])).bind fun r => (encodeToks T r.1 r.2).bind fun ts => write std lc c1 T ts

/-- `compress` with the strategy `esa` on the suffix array `sa` computed by divsufsort -/
def compressESA (std : StdLib) (lc : LitCoder) (c1 : UCoder) (diff : Nat → Nat → Nat) (pk : Packs) (T : List UInt8) (sa : List Nat) : Res (List UInt8) :=
  compressWith std lc c1 T ((textDS pk T sa).bind fun A => esaRules diff A T.length)

/-- lfs/LFSCompressor.hpp:96-101 `decompress` -/
def decompress (lc : LitCoder) (c1 : UCoder) (bytes : List UInt8) : Res (List UInt8) := read lc (decodeBits c1.dec) bytes

end Lfs
end Tdc
