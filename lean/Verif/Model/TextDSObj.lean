import Verif.Model.CompLCP
import Verif.Model.LZSSLCP

/-!
# ds/TextDS.hpp: the object that builds, keeps and throws away the text index structures

`TextDS` owns up to five structures. Building one may build others; `require(flags)` throws away what was not asked for; `inplace_x` hands
out the storage; `release_x` moves a structure out. `CompressedLCP` and `SparseISA` keep a pointer to the suffix array, so the
suffix array has an address here: reading through a pointer to a suffix array that was thrown away is undefined behaviour.

An array whose width is the word size is a list of numbers (texts are below 4 GiB); packing keeps the low bits of every entry. What divsufsort
delivers is an argument, as in Model/TextDS.lean.
-/

namespace Tdc
namespace TObj

/-- ds/CompressMode.hpp:6-28; `select` is `none` of an `Option Mode` -/
inductive Mode where
  | plain | delayed | compressed | coherent
deriving DecidableEq, Repr

/-- ds/TextDS.hpp:140-147: the option `compress` -/
def Mode.ofOption (s : String) : Mode :=
  if s = "delayed" then .delayed else if s = "compressed" then .compressed else .plain

/-- Is an array packed when its constructor is done? In mode `compressed` it is allocated with the small width, in mode `delayed` the
constructor ends with `compress()` (ds/SADivSufSort.hpp:37, 48-50, ds/PhiFromSA.hpp:35, 48, ds/PLCPFromPhi.hpp:51-53, ds/LCPFromPLCP.hpp:41, 53, ds/ISAFromSA.hpp:34, 46). -/
def Mode.packs : Mode → Bool
  | .plain => false
  | .delayed => true
  | .compressed => true
  | .coherent => false

/-- ds/TextDSFlags.hpp:8-15 -/
inductive DS where
  | sa | isa | lcp | phi | plcp
deriving DecidableEq, Repr

/-- a set of structures (`dsflags_t`) -/
structure Flags where
  sa : Bool := false
  isa : Bool := false
  lcp : Bool := false
  phi : Bool := false
  plcp : Bool := false
deriving DecidableEq, Repr

/-- `flags & x` -/
def Flags.has (f : Flags) : DS → Bool
  | .sa => f.sa
  | .isa => f.isa
  | .lcp => f.lcp
  | .phi => f.phi
  | .plcp => f.plcp

/-- etc/registry_config.py:55-63: `LCPFromPLCP` or `CompressedLCP` -/
inductive LcpKind where
  | plain | compressed
deriving DecidableEq, Repr

/-- etc/registry_config.py:66-69: `ISAFromSA` or `SparseISA` with its parameter -/
inductive IsaKind where
  | plain | sparse (t : Nat)
deriving DecidableEq, Repr

/-- The template parameters of the object, its text and the suffix array that divsufsort computes for it. -/
structure Cfg where
  text : List UInt8
  saOf : List Nat
  lk : LcpKind
  ik : IsaKind

/-- `PhiFromSA`: the entries, and whether their width is `bits_for(n)` -/
structure PhiObj where
  vals : List Nat
  packed : Bool
deriving DecidableEq, Repr

/-- `PLCPFromPhi`: the entries and `m_max` -/
structure PlcpObj where
  vals : List Nat
  max : Nat
deriving DecidableEq, Repr

/-- `LCPFromPLCP` or `CompressedLCP` (ds/CompressedLCP.hpp:22-28), which has a pointer to the suffix array -/
inductive LcpObj where
  | array (vals : List Nat) (max : Nat)
  | compressed (ptr : Nat) (max : Nat) (sel : RS.Select)

/-- `ISAFromSA` or `SparseISA` (ds/SparseISA.hpp:22-27), which has a pointer to the suffix array -/
inductive IsaObj where
  | array (vals : List Nat)
  | sparse (ptr : Nat) (t : Nat) (hs : List Bool) (rank : RS.Rank) (sc : List Nat)

/-- The members (ds/TextDS.hpp:62-72). The suffix array has an address; `next` is the next free one. -/
structure St where
  cm : Mode
  req : Flags
  next : Nat
  sa : Option (Nat × List Nat)
  phi : Option PhiObj
  plcp : Option PlcpObj
  lcp : Option LcpObj
  isa : Option IsaObj

/-- The constructor (ds/TextDS.hpp:129-148) -/
def init (cm : Mode) : St := ⟨cm, {}, 0, none, none, none, none, none⟩

/-- ds/TextDS.hpp:129-148: a text that does not end with a null byte is refused -/
def create (text : List UInt8) (cm : Mode) : Res St := if text.getLast? = some 0 then .ok (init cm) else .error .throw

/-- the structures the object holds -/
def St.has (s : St) : DS → Bool
  | .sa => s.sa.isSome
  | .isa => s.isa.isSome
  | .lcp => s.lcp.isSome
  | .phi => s.phi.isSome
  | .plcp => s.plcp.isSome

/-- `require_sa` (ds/TextDS.hpp:74-88, 159-161) with ds/SADivSufSort.hpp:30-63 -/
def needSA (C : Cfg) (m : Mode) (s : St) : St × (Nat × List Nat) :=
  match s.sa with
  | some p => (s, p)
  | none =>
    let p := (s.next, packIf m.packs (bitsFor C.text.length) C.saOf)
    ({ s with sa := some p, next := s.next + 1 }, p)

/-- `require_phi` (ds/TextDS.hpp:74-88, 162-164) with ds/PhiFromSA.hpp:25-50 -/
def needPhi (C : Cfg) (m : Mode) (s : St) : Res (St × PhiObj) :=
  match s.phi with
  | some p => .ok (s, p)
  | none =>
    (phiFromSA C.text.length (needSA C m s).2.2).bind fun v =>
      .ok ({ (needSA C m s).1 with phi := some ⟨packIf m.packs (bitsFor C.text.length) v, m.packs⟩ },
        ⟨packIf m.packs (bitsFor C.text.length) v, m.packs⟩)

/-- `inplace_phi` (ds/TextDS.hpp:100-115, 181-185): the data is a copy if Phi was requested, otherwise Phi is given up -/
def takePhi (C : Cfg) (m : Mode) (s : St) : Res (St × PhiObj) :=
  (needPhi C m s).bind fun r => if r.1.req.phi then .ok r else .ok ({ r.1 with phi := none }, r.2)

/-- `require_plcp` (ds/TextDS.hpp:74-88, 165-167) with ds/PLCPFromPhi.hpp:26-54. The array is that of Phi and has its width (an entry is read
before it is written, so truncating in the end is truncating at every write). -/
def needPlcp (C : Cfg) (m : Mode) (s : St) : Res (St × PlcpObj) :=
  match s.plcp with
  | some p => .ok (s, p)
  | none =>
    (takePhi C m s).bind fun r =>
      (plcpFromPhi C.text r.2.vals).bind fun q =>
        let p := ⟨packIf m.packs (bitsFor q.2) (packIf r.2.packed (bitsFor C.text.length) q.1), q.2⟩
        .ok ({ r.1 with plcp := some p }, p)

/-- the constructor of the LCP structure (ds/LCPFromPLCP.hpp:26-54, ds/CompressedLCP.hpp:52-75) -/
def mkLcp (C : Cfg) (m : Mode) (sa : Nat × List Nat) (plcp : PlcpObj) : Res LcpObj :=
  match C.lk with
  | .plain => (lcpFromPLCP sa.2 plcp.vals).bind fun v => .ok (.array (packIf m.packs (bitsFor plcp.max) v) plcp.max)
  | .compressed => (CL.build sa.2 plcp.vals plcp.max).bind fun c => .ok (.compressed sa.1 c.max c.sel)

/-- `require_lcp` (ds/TextDS.hpp:74-88, 168-170) -/
def needLcp (C : Cfg) (m : Mode) (s : St) : Res (St × LcpObj) :=
  match s.lcp with
  | some p => .ok (s, p)
  | none =>
    (needPlcp C m (needSA C m s).1).bind fun r =>
      (mkLcp C m (needSA C m s).2 r.2).bind fun p => .ok ({ r.1 with lcp := some p }, p)

/-- the constructor of the ISA structure (ds/ISAFromSA.hpp:23-47, ds/SparseISA.hpp:41-105); the loops run over `n` entries -/
def mkIsa (C : Cfg) (m : Mode) (sa : Nat × List Nat) : Res IsaObj :=
  match C.ik with
  | .plain =>
    if sa.2.length = C.text.length then
      (isaFromSA C.text.length sa.2).bind fun v => .ok (.array (packIf m.packs (bitsFor C.text.length) v))
    else .error .ub
  | .sparse t => (SI.build sa.2 t).bind fun S => .ok (.sparse sa.1 t S.hs S.rank S.sc)

/-- `require_isa` (ds/TextDS.hpp:74-88, 171-173) -/
def needIsa (C : Cfg) (m : Mode) (s : St) : Res (St × IsaObj) :=
  match s.isa with
  | some p => .ok (s, p)
  | none => (mkIsa C m (needSA C m s).2).bind fun p => .ok ({ (needSA C m s).1 with isa := some p }, p)

/-- `discard_unneeded` (ds/TextDS.hpp:238-245) -/
def discard (s : St) : St :=
  { s with sa := if s.req.sa then s.sa else none
           phi := if s.req.phi then s.phi else none
           plcp := if s.req.plcp then s.plcp else none
           lcp := if s.req.lcp then s.lcp else none
           isa := if s.req.isa then s.isa else none }

/-- `m_sa->compress()` (ds/SADivSufSort.hpp:53-62) -/
def compressSA (s : St) : St := { s with sa := s.sa.map fun p => (p.1, packTo (bitsFor p.2.length) p.2) }

/-- `m_phi->compress()` (ds/PhiFromSA.hpp:51-60) -/
def compressPhi (s : St) : St := { s with phi := s.phi.map fun p => ⟨packTo (bitsFor p.vals.length) p.vals, true⟩ }

/-- `m_plcp->compress()` (ds/PLCPFromPhi.hpp:60-69) -/
def compressPlcp (s : St) : St := { s with plcp := s.plcp.map fun p => ⟨packTo (bitsFor p.max) p.vals, p.max⟩ }

/-- `m_lcp->compress()` (ds/LCPFromPLCP.hpp:60-69, ds/CompressedLCP.hpp:86-88) -/
def LcpObj.pack : LcpObj → LcpObj
  | .array v mx => .array (packTo (bitsFor mx) v) mx
  | .compressed a b c => .compressed a b c

/-- `m_isa->compress()` (ds/ISAFromSA.hpp:49-58, ds/SparseISA.hpp:123-125) -/
def IsaObj.pack : IsaObj → IsaObj
  | .array v => .array (packTo (bitsFor v.length) v)
  | .sparse a b c d e => .sparse a b c d e

/-- the mode `require` works with (ds/TextDS.hpp:254-255) -/
def reqMode (cm : Option Mode) (s : St) : Mode := cm.getD (if s.cm = .delayed then .coherent else s.cm)

/-- ds/TextDS.hpp:259 -/
def reqSA (C : Cfg) (m : Mode) (s : St) : St := if s.req.sa then discard (needSA C m s).1 else s

/-- ds/TextDS.hpp:262 -/
def reqPhi (C : Cfg) (m : Mode) (s : St) : Res St :=
  if s.req.phi then (needPhi C m s).bind fun r => .ok (discard r.1) else .ok s

/-- ds/TextDS.hpp:265-271 -/
def reqPlcp (C : Cfg) (m : Mode) (s : St) : Res St :=
  if s.req.plcp then
    (needPlcp C m s).bind fun r =>
      .ok (if m = .coherent ∧ s.req.lcp = false then compressPlcp (discard r.1) else discard r.1)
  else .ok s

/-- ds/TextDS.hpp:274-278 -/
def reqLcp (C : Cfg) (m : Mode) (s : St) : Res St :=
  if s.req.lcp then
    (needLcp C m s).bind fun r =>
      .ok (if m = .coherent then { discard r.1 with lcp := (discard r.1).lcp.map LcpObj.pack } else discard r.1)
  else .ok s

/-- ds/TextDS.hpp:281-285 -/
def reqIsa (C : Cfg) (m : Mode) (s : St) : Res St :=
  if s.req.isa then
    (needIsa C m s).bind fun r =>
      .ok (if m = .coherent then { discard r.1 with isa := (discard r.1).isa.map IsaObj.pack } else discard r.1)
  else .ok s

/-- `require(flags, cm)` (ds/TextDS.hpp:248-293) -/
def require (C : Cfg) (f : Flags) (cm : Option Mode) (s : St) : Res St :=
  (reqPhi C (reqMode cm s) (reqSA C (reqMode cm s) { s with req := f })).bind fun s1 =>
    (reqPlcp C (reqMode cm s) s1).bind fun s2 =>
      (reqLcp C (reqMode cm s) s2).bind fun s3 =>
        (reqIsa C (reqMode cm s) s3).bind fun s4 =>
          .ok (if reqMode cm s = .coherent then compressPlcp (compressPhi (compressSA s4)) else s4)

/-- `require_x(cm)` (ds/TextDS.hpp:159-173) -/
def need (C : Cfg) (x : DS) (cm : Option Mode) (s : St) : Res St :=
  match x with
  | .sa => .ok (needSA C (cm.getD s.cm) s).1
  | .phi => (needPhi C (cm.getD s.cm) s).bind fun r => .ok r.1
  | .plcp => (needPlcp C (cm.getD s.cm) s).bind fun r => .ok r.1
  | .lcp => (needLcp C (cm.getD s.cm) s).bind fun r => .ok r.1
  | .isa => (needIsa C (cm.getD s.cm) s).bind fun r => .ok r.1

/-- `inplace_x(cm)` (ds/TextDS.hpp:100-115, 176-200): the data, as a copy or taken from the object. `copy()` and `relinquish()` of
`CompressedLCP` and `SparseISA` throw. -/
def inplace (C : Cfg) (x : DS) (cm : Option Mode) (s : St) : Res (St × List Nat) :=
  match x with
  | .sa =>
    let r := needSA C (cm.getD s.cm) s
    .ok (if r.1.req.sa then r.1 else { r.1 with sa := none }, r.2.2)
  | .phi => (takePhi C (cm.getD s.cm) s).bind fun r => .ok (r.1, r.2.vals)
  | .plcp => (needPlcp C (cm.getD s.cm) s).bind fun r => .ok (if r.1.req.plcp then r.1 else { r.1 with plcp := none }, r.2.vals)
  | .lcp => (needLcp C (cm.getD s.cm) s).bind fun r =>
      match r.2 with
      | .array v _ => .ok (if r.1.req.lcp then r.1 else { r.1 with lcp := none }, v)
      | .compressed _ _ _ => .error .throw
  | .isa => (needIsa C (cm.getD s.cm) s).bind fun r =>
      match r.2 with
      | .array v => .ok (if r.1.req.isa then r.1 else { r.1 with isa := none }, v)
      | .sparse _ _ _ _ _ => .error .throw

/-- `release_x()` (ds/TextDS.hpp:94-98, 204-218): the structure is moved out of the object, which keeps the pointer to what is left: an array without
entries. Without a structure a null pointer is dereferenced. Moving a `CompressedLCP` or a `SparseISA` leaves its bit
vector behind, to which its select or rank structure still points (ds/Select.hpp:60-68): every later read is undefined; the model faults at once. -/
def release (x : DS) (s : St) : Res (St × List Nat) :=
  match x with
  | .sa => match s.sa with
    | some p => .ok ({ s with sa := some (p.1, []) }, p.2)
    | none => .error .ub
  | .phi => match s.phi with
    | some p => .ok ({ s with phi := some ⟨[], p.packed⟩ }, p.vals)
    | none => .error .ub
  | .plcp => match s.plcp with
    | some p => .ok ({ s with plcp := some ⟨[], p.max⟩ }, p.vals)
    | none => .error .ub
  | .lcp => match s.lcp with
    | some (.array v mx) => .ok ({ s with lcp := some (.array [] mx) }, v)
    | _ => .error .ub
  | .isa => match s.isa with
    | some (.array v) => .ok ({ s with isa := some (.array []) }, v)
    | _ => .error .ub

/-- follow a pointer to the suffix array -/
def deref (s : St) (a : Nat) : Res (List Nat) :=
  match s.sa with
  | some p => if p.1 = a then .ok p.2 else .error .ub
  | none => .error .ub

/-- `operator[]` of the structure the object holds (ds/CompressedLCP.hpp:81-84, ds/SparseISA.hpp:108-121 and the arrays). The loop of
`SparseISA` ends after at most `t + 1` tests. -/
def read (s : St) (x : DS) (i : Nat) : Res Nat :=
  match x with
  | .sa => match s.sa with
    | some p => vget p.2 i
    | none => .error .ub
  | .phi => match s.phi with
    | some p => vget p.vals i
    | none => .error .ub
  | .plcp => match s.plcp with
    | some p => vget p.vals i
    | none => .error .ub
  | .lcp => match s.lcp with
    | some (.array v _) => vget v i
    | some (.compressed a mx sel) => (deref s a).bind fun sa => CL.CLCP.get ⟨sa, mx, sel⟩ i
    | none => .error .ub
  | .isa => match s.isa with
    | some (.array v) => vget v i
    | some (.sparse a t hs rank sc) => (deref s a).bind fun sa => SI.query ⟨sa, hs, rank, sc⟩ (t + 1) i
    | none => .error .ub

/-- `max_lcp()` of PLCP and LCP (ds/PLCPFromPhi.hpp:56-58, ds/LCPFromPLCP.hpp:56-58, ds/CompressedLCP.hpp:77-79) -/
def maxLcp (s : St) : List Nat :=
  (match s.plcp with | some p => [p.max] | none => []) ++
  (match s.lcp with | some (.array _ mx) => [mx] | some (.compressed _ mx _) => [mx] | none => [])

/-- The calls of a client. -/
inductive Op where
  | require (f : Flags) (cm : Option Mode)
  | need (x : DS) (cm : Option Mode)
  | inplace (x : DS) (cm : Option Mode)
  | release (x : DS)
deriving DecidableEq, Repr

/-- One call; the second component is the data handed out by value. -/
def step (C : Cfg) (s : St) : Op → Res (St × List (DS × List Nat))
  | .require f cm => (require C f cm s).bind fun s => .ok (s, [])
  | .need x cm => (need C x cm s).bind fun s => .ok (s, [])
  | .inplace x cm => (inplace C x cm s).bind fun r => .ok (r.1, [(x, r.2)])
  | .release x => (release x s).bind fun r => .ok (r.1, [(x, r.2)])

/-- A history of calls: the final state and everything that was handed out. -/
def run (C : Cfg) : St → List Op → Res (St × List (DS × List Nat))
  | s, [] => .ok (s, [])
  | s, op :: ops => (step C s op).bind fun r => (run C r.1 ops).bind fun q => .ok (q.1, r.2 ++ q.2)

/-- What a compressor reads: the entries `0, …, n-1` of the suffix array, the inverse and the LCP array (the structures are read only). -/
def arraysOf (C : Cfg) (s : St) : Res TextArrays :=
  ((List.range C.text.length).mapM (read s .sa)).bind fun sa =>
    ((List.range C.text.length).mapM (read s .isa)).bind fun isa =>
      ((List.range C.text.length).mapM (read s .lcp)).bind fun lcp => .ok ⟨sa, isa, lcp⟩

/-- compressors/LZSSLCPCompressor.hpp:42-54: construct the object, `require(SA | ISA | LCP)` in its constructor, then the three `require_x` -/
def lzssHistory : List Op :=
  [.require { sa := true, isa := true, lcp := true } none, .need .sa none, .need .isa none, .need .lcp none]

/-- compressors/LZSSLCPCompressor.hpp:42-124 `compress` with any TextDS -/
def lzssWith (c : UCoder) (C : Cfg) (m : Mode) (th : Nat) : Res (List UInt8) :=
  (run C (init m) lzssHistory).bind fun r =>
    (arraysOf C r.1).bind fun A =>
      (lcpFactors A C.text.length th).bind fun fs => .ok (BitO.toBytes (c.encAll (lzssEncode C.text fs)))

end TObj
end Tdc
