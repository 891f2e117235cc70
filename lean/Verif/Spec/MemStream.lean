import Verif.Model.MemStream

/-!
# Specification vocabulary: an input stream over a string, as the C++ standard describes it

The stream is a cursor in the string. `seekg` moves it to a position counted from the beginning, from the cursor or from the end
(offsets are *added*); positions outside of the string are an error and set `failbit`.
-/

namespace Tdc
namespace MS

/-- cursor and state bits -/
structure Cursor where
  pos : Nat
  eof : Bool
  fail : Bool
deriving DecidableEq, Repr

/-- the cursor is moved to the position `p`, which must be in the string of length `n` -/
def Cursor.moveTo (n : Nat) (c : Cursor) (p : Int) : Cursor :=
  if c.fail then { c with eof := false }
  else if 0 ≤ p ∧ p ≤ n then ⟨p.toNat, false, false⟩
  else ⟨c.pos, false, true⟩

/-- the position a call wants to go to -/
def Op.target (n : Nat) (c : Cursor) : Op → Option Int
  | .seekPos p => some p
  | .seekOff o .beg => some o
  | .seekOff o .cur => some (c.pos + o)
  | .seekOff o .fin => some (n + o)
  | _ => none

/-- one call, as the standard says -/
def Op.onString (t : List UInt8) (c : Cursor) : Op → Out × Cursor
  | .get =>
    if c.eof ∨ c.fail then (.byte none, { c with fail := true })
    else
      match t[c.pos]? with
      | some x => (.byte (some x), { c with pos := c.pos + 1 })
      | none => (.byte none, { c with eof := true, fail := true })
  | .clear => (.none, { c with eof := false, fail := false })
  | .tellg => if c.eof ∨ c.fail then (.pos (-1), { c with fail := true }) else (.pos c.pos, c)
  | .seekPos p => (.none, c.moveTo t.length p)
  | .seekOff o .beg => (.none, c.moveTo t.length o)
  | .seekOff o .cur => (.none, c.moveTo t.length (c.pos + o))
  | .seekOff o .fin => (.none, c.moveTo t.length (t.length + o))

/-- a history of calls -/
def onString (t : List UInt8) : Cursor → List Op → List Out × Cursor
  | c, [] => ([], c)
  | c, o :: os => let r := o.onString t c; let q := onString t r.2 os; (r.1 :: q.1, q.2)

/-- no call goes to a negative position, none with `ios_base::end` to anywhere but the end -/
def Tame (t : List UInt8) : Cursor → List Op → Prop
  | _, [] => True
  | c, o :: os =>
    (c.fail = false → ∀ p, o.target t.length c = some p → 0 ≤ p ∧ p < 2 ^ 63) ∧ (∀ off, o = .seekOff off .fin → off = 0) ∧
      Tame t (o.onString t c).2 os

end MS
end Tdc
