import Verif.Model.SparseISA

/-!
# ds/CompressedLCP.hpp and ds/LCPSada.hpp: LCP values in 2n bits

`len_t` is 32 bit.  The bit vectors are written as lists of bits and packed (`BV.ofBits`) when a select structure or the word iterator
reads them.
-/

namespace Tdc
namespace CL
open RS

/-- ds/CompressedLCP.hpp:42-48 `encode_unary`: `x` zeros and a one. -/
def encUnary (x : Nat) : List Bool := List.replicate x false ++ [true]

/-- A sum in 32 bits of `len` and the 64 bit value `p - prev + c` (which wraps). -/
@[irreducible] def step32 (len p prev c : Nat) : Nat := (len + (p + 2 ^ 64 - prev + c)) % 2 ^ 32

/-- A sum in 32 bits. -/
@[irreducible] def add32 (a b : Nat) : Nat := (a + b) % 2 ^ 32

/-- ds/CompressedLCP.hpp:69-71: `encode_unary(plcp[i] - plcp[i-1] + 1)` for the remaining entries, `prev` is `plcp[i-1]`; the
subtraction wraps in 64 bits, the parameter has 32. -/
def cBitsLoop (prev : Nat) : List Nat → List Bool
  | [] => []
  | p :: ps => encUnary (step32 0 p prev 1) ++ cBitsLoop p ps

/-- ds/CompressedLCP.hpp:67-71; `plcp[0]` is read without a check. -/
def cBits : List Nat → Res (List Bool)
  | [] => .error .ub
  | p :: ps => .ok (encUnary (add32 p 1) ++ cBitsLoop p ps)

/-- The members (ds/CompressedLCP.hpp:22-28). -/
structure CLCP where
  sa : List Nat
  max : Nat
  sel : Select

/-- The constructor (ds/CompressedLCP.hpp:52-75). -/
def build (sa plcp : List Nat) (mx : Nat) : Res CLCP := do
  let bits ← cBits plcp
  let S ← Select.build basic1 (BV.ofBits bits)
  .ok ⟨sa, mx, S⟩

/-- ds/CompressedLCP.hpp:83: `m_select(j+1) - 2*j - 1`; `2*j` in 32 bits, the difference in 64, the result in 32. -/
@[irreducible] def decodePos (p j : Nat) : Nat := (p + 2 ^ 64 - (2 * j) % 2 ^ 32 - 1) % 2 ^ 32

/-- `operator[]` (ds/CompressedLCP.hpp:81-84). -/
def CLCP.get (C : CLCP) (i : Nat) : Res Nat := do
  let j ← vget C.sa i
  let p ← C.sel.select basic1 (j + 1)
  .ok (decodePos p j)

/-- TextDS with this class as LCP structure (ds/TextDS.hpp:247-292); phi and PLCP may be packed. -/
def textCLCP (pk : Packs) (t : List UInt8) (sa : List Nat) : Res CLCP := do
  let phi ← phiFromSA t.length (packIf pk.sa (bitsFor t.length) sa)
  let (plcp, mx) ← plcpFromPhi t (packIf pk.phi (bitsFor t.length) phi)
  build (packIf pk.sa (bitsFor t.length) sa) (packIf pk.plcp (bitsFor mx) plcp) mx

/-! ### Sadakane's form -/

/-- ds/LCPSada.hpp:155-159: `len += plcp[i+1]-plcp[i]+1` in 32 bits. -/
def sadaLen (prev len : Nat) : List Nat → Nat
  | [] => len
  | p :: ps => sadaLen p (step32 len p prev 1) ps

/-- ds/LCPSada.hpp:163-167: set the bits of the remaining entries. -/
def sadaSet (prev len : Nat) (bv : List Bool) : List Nat → Res (List Bool)
  | [] => .ok bv
  | p :: ps =>
    (vset bv (step32 len p prev 2) true).bind fun bv => sadaSet p (step32 len p prev 2) bv ps

/-- `construct_plcp_bitvector(plcp)` (ds/LCPSada.hpp:153-171). -/
def sadaBits : List Nat → Res (List Bool)
  | [] => .error .ub
  | p :: ps =>
    match vset (List.replicate (add32 (sadaLen p p ps) (ps.length + 1)) false) p true with
    | .error e => .error e
    | .ok bv => sadaSet p p bv ps

/-- `construct_plcp_bitvector(env, sa, text)` (ds/LCPSada.hpp:174-190): `construct_phi_array` (19-31) is the code of PhiFromSA;
`phi_algorithm` (40-59) that of PLCPFromPhi, except that `phi[n-1] = 0` in the end. -/
def sadaText (t : List UInt8) (sa : List Nat) : Res (List Bool) := do
  let phi ← phiFromSA t.length sa
  let (plcp, _) ← plcpFromPhi t phi
  let plcp ← vset plcp (t.length - 1) 0
  sadaBits plcp

/-- ds/LCPSada.hpp:80, 84: `select(idx+1) - 2*idx` in 32 bits -/
@[irreducible] def sadaPos (p j : Nat) : Nat := (p + 2 ^ 64 - (2 * j) % 2 ^ 32) % 2 ^ 32

/-- `LCPSada::plcp` (ds/LCPSada.hpp:82-85). The sdsl select structure is an argument: a function that is asked for the `k`-th one. -/
def sadaPlcp (select : Nat → Nat) (n idx : Nat) : Nat := if n = 1 then 0 else sadaPos (select (idx + 1)) idx

/-- `LCPSada::operator[]` (ds/LCPSada.hpp:77-81). -/
def sadaGet (select : Nat → Nat) (sa : List Nat) (i : Nat) : Res Nat :=
  if sa.length = 1 then .ok 0 else
    match vget sa i with
    | .error e => .error e
    | .ok j => .ok (sadaPos (select (j + 1)) j)

/-- The state of `LCPForwardIterator` (ds/LCPSada.hpp:116-120). -/
structure FwdIt where
  idx : Nat
  block : Nat
  rank : Nat
deriving DecidableEq, Repr

/-- ds/LCPSada.hpp:133-138: skip words; at most `fuel` rounds. -/
def fwdSkip (data : List Nat) (chunks : Nat) : Nat → FwdIt → Res FwdIt
  | 0, _ => .error .loop
  | fuel + 1, s =>
    if s.block < chunks then
      (rd data s.block).bind fun w =>
        if s.rank + popcount w ≥ s.idx + 1 then .ok s
        else fwdSkip data chunks fuel { s with rank := s.rank + popcount w, block := s.block + 1 }
    else .ok s

/-- `next_select` (ds/LCPSada.hpp:127-142); `sdsl::bits::cnt` and `sdsl::bits::sel` are population count and select in a word. -/
def nextSelect (bv : BV) (s : FwdIt) : Res (Nat × FwdIt) :=
  (fwdSkip bv.data (1 + (bv.n - 1) / 64) (1 + (bv.n - 1) / 64 + 1) s).bind fun s =>
    if s.block = 1 + (bv.n - 1) / 64 then .ok (bv.n, s)
    else (rd bv.data s.block).bind fun w => .ok (64 * s.block + select1w w (s.idx + 1 - s.rank), s)

/-- The calls of a client. -/
inductive FwdOp where
  | advance
  | read
deriving DecidableEq, Repr

/-- `advance()` (ds/LCPSada.hpp:147-149) and `operator()` (143-146). A run of calls collects the values read. -/
def fwdRun (bv : BV) : FwdIt → List FwdOp → Res (List Nat)
  | _, [] => .ok []
  | s, .advance :: ops => fwdRun bv { s with idx := s.idx + 1 } ops
  | s, .read :: ops =>
    (nextSelect bv s).bind fun r => (fwdRun bv r.2 ops).bind fun vs => .ok (sadaPos r.1 s.idx :: vs)

end CL
end Tdc
