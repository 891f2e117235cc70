import Verif.Model.Input

/-! # Specification of inputs: the bytes a slice denotes -/

namespace Tdc

/-- Bytes `[frm, upto)` of a text; `none` is the end of the text. -/
def sliceSpec (t : List UInt8) (frm : Nat) (upto : Option Nat) : List UInt8 :=
  (t.take (upto.getD t.length)).drop frm

/-- A slice within the text. -/
def InRange (t : List UInt8) (frm : Nat) (upto : Option Nat) : Prop :=
  frm ≤ upto.getD t.length ∧ upto.getD t.length ≤ t.length

/-- What an input should deliver: the restricted form of its slice of the source. -/
def Inp.expected (i : Inp) : Res (List UInt8) :=
  readRestricted i.restr (sliceSpec i.src.bytes i.frm i.upto)

/-- A use of inputs over one stream: request a view or stream of a slice under a restriction, or drop one of
the views or streams obtained. -/
inductive StreamOp where
  | acquire (bs : List UInt8) (nt : Bool) (frm : Nat) (upto : Option Nat)
  | release

/-- Run a history; every `acquire` is recorded with the number of views alive before it and its result.  The
program ends at the first failure. -/
def runStream (ps : Nat) (bytes : List UInt8) : StreamPool → List StreamOp →
    List (StreamOp × Nat × Res (List UInt8))
  | _, [] => []
  | p, .release :: ops => runStream ps bytes (closeStream p) ops
  | p, .acquire bs nt frm upto :: ops =>
    match openStream ps bytes p (Restr.make bs nt) frm upto with
    | .error e => [(.acquire bs nt frm upto, p.handles, .error e)]
    | .ok (v, p') => (.acquire bs nt frm upto, p.handles, .ok v) :: runStream ps bytes p' ops

end Tdc
