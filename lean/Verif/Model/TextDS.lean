import Verif.Model.Trie
import Verif.Model.BitIO

/-!
# ds/{ISAFromSA,PhiFromSA,PLCPFromPhi,LCPFromPLCP}.hpp

Arrays are lists of numbers; the bit width of the packed vectors only matters in `compress()`.
The suffix array itself comes from the external library divsufsort and is an argument.
-/

namespace Tdc

/-- `vector[i] = v`, out of bounds is undefined behaviour. -/
def vset {α : Type} (l : List α) (i : Nat) (v : α) : Res (List α) :=
  if i < l.length then .ok (l.set i v) else .error .ub

/-- ds/ISAFromSA.hpp:37-39: `isa[sa[i]] = i` -/
def isaLoop : List Nat → Nat → List Nat → Res (List Nat)
  | [], _, isa => .ok isa
  | s :: sa, i, isa =>
    match vset isa s i with
    | .error e => .error e
    | .ok isa => isaLoop sa (i + 1) isa

/-- ds/ISAFromSA.hpp:30-43 -/
def isaFromSA (n : Nat) (sa : List Nat) : Res (List Nat) := isaLoop sa 0 (List.replicate n 0)

/-- ds/PhiFromSA.hpp:37-40: for `i ≥ 1`, `phi[sa[i]] = sa[i-1]` -/
def phiLoop : List Nat → Nat → List Nat → Res (List Nat)
  | [], _, phi => .ok phi
  | s :: sa, prev, phi =>
    match vset phi s prev with
    | .error e => .error e
    | .ok phi => phiLoop sa s phi

/-- ds/PhiFromSA.hpp:33-42; `sa[0]` does not exist for the empty text -/
def phiFromSA (n : Nat) (sa : List Nat) : Res (List Nat) :=
  match sa with
  | [] => .error .ub
  | s0 :: rest =>
    match phiLoop rest s0 (List.replicate n 0) with
    | .error e => .error e
    | .ok phi => vset phi s0 (sa.getD (n - 1) 0)

/-- ds/PLCPFromPhi.hpp:40: `while(t[i+l] == t[phii+l]) ++l;` (no bounds check) -/
def plcpExtend (t : List UInt8) (i j : Nat) : Nat → Nat → Res Nat
  | 0, _ => .error .loop
  | fuel + 1, l =>
    match vget t (i + l), vget t (j + l) with
    | .ok a, .ok b => if a = b then plcpExtend t i j fuel (l + 1) else .ok l
    | _, _ => .error .ub

/-- ds/PLCPFromPhi.hpp:38-44: the loop `for(i = 0, l = 0; i < n - 1; ++i)` working in place, `k` rounds to go.
Result: the array and `m_max`. -/
def plcpLoop (t : List UInt8) : Nat → Nat → Nat → Nat → List Nat → Res (List Nat × Nat)
  | 0, _, _, mx, arr => .ok (arr, mx)
  | k + 1, i, l, mx, arr =>
    match vget arr i with
    | .error e => .error e
    | .ok phii =>
      match plcpExtend t i phii (t.length + 1) l with
      | .error e => .error e
      | .ok l => plcpLoop t k (i + 1) (l - 1) (max mx l) (arr.set i l)

/-- ds/PLCPFromPhi.hpp:30-49. (`n - 1` is computed in `size_t`; the empty text is excluded by TextDS.hpp:132.) -/
def plcpFromPhi (t : List UInt8) (phi : List Nat) : Res (List Nat × Nat) := plcpLoop t (t.length - 1) 0 0 0 phi

/-- ds/LCPFromPLCP.hpp:44-47: `lcp[i] = plcp[sa[i]]` for `i ≥ 1` -/
def lcpLoop (plcp : List Nat) : List Nat → Res (List Nat)
  | [] => .ok []
  | s :: sa =>
    match vget plcp s with
    | .error e => .error e
    | .ok x =>
      match lcpLoop plcp sa with
      | .error e => .error e
      | .ok xs => .ok (x :: xs)

/-- ds/LCPFromPLCP.hpp:36-51 -/
def lcpFromPLCP (sa : List Nat) (plcp : List Nat) : Res (List Nat) :=
  match sa with
  | [] => .error .ub
  | _ :: rest =>
    match lcpLoop plcp rest with
    | .error e => .error e
    | .ok xs => .ok (0 :: xs)

/-- `compress()`: `width(bits)` of the packed vector keeps the low bits of every entry (ds/ISAFromSA.hpp:48-58,
ds/PhiFromSA.hpp:50-60, ds/PLCPFromPhi.hpp:59-69, ds/LCPFromPLCP.hpp:60-70) -/
def packTo (bits : Nat) (arr : List Nat) : List Nat := arr.map (· % 2 ^ bits)

/-- Which arrays get bit-packed. ds/TextDS.hpp:140-147, 247-292: `compress = plain` packs nothing, `delayed` packs the
requested arrays in the end, `compressed` packs every array as soon as it is written (there the vectors are allocated with
the small width, which truncates the same way). -/
structure Packs where
  sa : Bool
  phi : Bool
  plcp : Bool
  lcp : Bool
  isa : Bool
deriving DecidableEq, Repr

/-- pack if requested -/
def packIf (b : Bool) (bits : Nat) (arr : List Nat) : List Nat := if b then packTo bits arr else arr

/-- The arrays a compressor gets. -/
structure TextArrays where
  sa : List Nat
  isa : List Nat
  lcp : List Nat
deriving DecidableEq, Repr

/-- ds/TextDS.hpp:247-292 `require(SA | ISA | LCP)` given the suffix array computed by divsufsort -/
def textDS (pk : Packs) (t : List UInt8) (sa : List Nat) : Res TextArrays :=
  let n := t.length
  let sa := packIf pk.sa (bitsFor n) sa
  match phiFromSA n sa with
  | .error e => .error e
  | .ok phi =>
    match plcpFromPhi t (packIf pk.phi (bitsFor n) phi) with
    | .error e => .error e
    | .ok (plcp, mx) =>
      match lcpFromPLCP sa (packIf pk.plcp (bitsFor mx) plcp) with
      | .error e => .error e
      | .ok lcp =>
        match isaFromSA n sa with
        | .error e => .error e
        | .ok isa => .ok ⟨sa, packIf pk.isa (bitsFor n) isa, packIf pk.lcp (bitsFor mx) lcp⟩

end Tdc
