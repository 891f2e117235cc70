import Verif.Model.Basic
import Verif.Model.Coders

/-!
# The JSON writer of the statistics: tudocomp_stat/Json.hpp

Strings are lists of bytes.
-/

namespace Tdc.Json

/-- ASCII text -/
def bytes (s : String) : List UInt8 := s.toList.map fun c => UInt8.ofNat c.toNat

/-- Json.hpp: the values. `TValue<T>` for integers and `TValue<std::string>` (with the string that was passed to the constructor), `Array`, `Object`.
The fields of an object are a `std::map`, so they are ordered by their names. Floating-point values, `TValue<char>` and other instances are left out. -/
inductive JV where
  | num (n : Int)
  | str (s : List UInt8)
  | arr (l : List JV)
  | obj (l : List (List UInt8 × JV))

/-- `operator<` of `std::string` -/
def slt : List UInt8 → List UInt8 → Bool
  | _, [] => false
  | [], _ :: _ => true
  | a :: s, b :: t => if a < b then true else if b < a then false else slt s t

/-- Json.hpp:160-190 `Object::set`: `m_fields[key] = …` -/
def setField {α : Type} (k : List UInt8) (v : α) : List (List UInt8 × α) → List (List UInt8 × α)
  | [] => [(k, v)]
  | (k', v') :: l => if k = k' then (k, v) :: l else if slt k k' then (k, v) :: (k', v') :: l else (k', v') :: setField k v l

/-- `std::string::find(c, pos)` -/
def findByte (c : UInt8) (s : List UInt8) (pos : Nat) : Option Nat :=
  match (s.drop pos).findIdx? (· == c) with
  | none => none
  | some i => some (pos + i)

/-- Json.hpp:80-91: the loop of `TValue<std::string>`. Each round passes a quote; `fuel` bounds their number. -/
def escLoop : Nat → List UInt8 → Nat → Res (List UInt8)
  | 0, _, _ => .error .loop
  | fuel + 1, s, pos =>
    match findByte 34 s pos with
    | none => .ok s
    | some x => escLoop fuel (s.take x ++ [92, 34] ++ s.drop (x + 1)) (x + 2)

/-- Json.hpp:76-91 -/
def escape (s : List UInt8) : Res (List UInt8) := escLoop (s.length + 1) s 0

/-- Json.hpp:16-18 `level_indent` -/
def indent (level : Nat) : List UInt8 := List.replicate (4 * level) 32

/-- `ostream << n` -/
def dec (n : Int) : List UInt8 := (if n < 0 then [45] else []) ++ (decDigits n.natAbs).map fun d => UInt8.ofNat (48 + d)

mutual
/-- Json.hpp: `str(s, level)` of the values: :53-58, 93-96 (strings, escaped by the constructor), :134-143 (arrays), :197-213 (objects) -/
def render : JV → Nat → Res (List UInt8)
  | .num n, _ => .ok (dec n)
  | .str s, _ => (escape s).bind fun e => .ok (34 :: e ++ [34])
  | .arr l, level => (renderAll l level).bind fun b => .ok (91 :: b ++ [93])
  | .obj l, level => (renderFields l level).bind fun b => .ok (123 :: 10 :: b ++ indent level ++ [125])
/-- :136-140 -/
def renderAll : List JV → Nat → Res (List UInt8)
  | [], _ => .ok []
  | v :: l, level => (render v level).bind fun a => (renderAll l level).bind fun b => .ok (a ++ (if l.isEmpty then [] else [44]) ++ b)
/-- :200-209; names are written as they are -/
def renderFields : List (List UInt8 × JV) → Nat → Res (List UInt8)
  | [], _ => .ok []
  | (k, v) :: l, level => (render v (level + 1)).bind fun a => (renderFields l level).bind fun b =>
    .ok (indent (level + 1) ++ 34 :: k ++ [34, 58, 32] ++ a ++ (if l.isEmpty then [] else [44]) ++ 10 :: b)
end

end Tdc.Json
