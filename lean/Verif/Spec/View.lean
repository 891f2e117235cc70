import Verif.Model.View

/-!
# Specification vocabulary: a view shows a byte string
-/

namespace Tdc
namespace VW

/-- the string a view shows -/
def View.str (mem : List UInt8) (v : View) : List UInt8 := (mem.drop v.ptr).take v.size

/-- the view lies in its memory block (of less than `2^64 - 1` bytes) -/
def View.In (mem : List UInt8) (v : View) : Prop := v.ptr + v.size ≤ mem.length ∧ mem.length < 2 ^ 64 - 1

/-- what an operation does with a string of bytes; `none` if its arguments do not fit the string -/
def Op.onString (s : List UInt8) : Op → Option (List UInt8)
  | .popBack => if s = [] then none else some s.dropLast
  | .popFront => if s = [] then none else some s.tail
  | .clear => some []
  | .removePrefix n => if n ≤ s.length then some (s.drop n) else none
  | .removeSuffix n => if n ≤ s.length then some (s.take (s.length - n)) else none
  | .slice a none => if a ≤ s.length then some (s.drop a) else none
  | .slice a (some b) => if a ≤ b ∧ b ≤ s.length then some ((s.take b).drop a) else none
  | .substr a none => if a ≤ s.length then some (s.drop a) else none
  | .substr a (some l) => if a + l ≤ s.length then some ((s.drop a).take l) else none

/-- a history of operations on a string -/
def onString : List UInt8 → List Op → Option (List UInt8)
  | s, [] => some s
  | s, o :: os => (o.onString s).bind fun s => onString s os

end VW
end Tdc
