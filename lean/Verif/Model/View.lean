import Verif.Model.Basic

/-!
# pre_header/GenericViewBase.hpp, util/GenericConstView.hpp, util/GenericConstU8View.hpp, util/GenericView.hpp: views into memory

`View` (= `string_ref` = `ConstGenericView<uint8_t>`, util/View.hpp:25-27) is a pointer and a size. Pointers are offsets into the
memory block `mem` the view was made from; reading outside of the block is undefined behaviour. The classes `ConstGenericView<T>`,
`ConstGenericView<uliteral_t>` and `GenericView<T>` only forward to the base class that is modelled; element type: bytes.

`dbg`: a build with `DCHECK` and `IF_DEBUG` switched on; their failure (abort, or `std::out_of_range`) is `Fault.throw`.
-/

namespace Tdc
namespace VW

/-- GenericViewBase.hpp:36 `npos = -1`, a `size_t` -/
def npos : Nat := 2 ^ 64 - 1

/-- difference of two `size_t` -/
def zsub (a b : Nat) : Nat := (a + 2 ^ 64 - b) % 2 ^ 64

/-- GenericViewBase.hpp:38-39: `m_data`, `m_size` -/
structure View where
  ptr : Nat
  size : Nat
deriving DecidableEq, Repr

/-- `*p` -/
def deref (mem : List UInt8) (p : Nat) : Res UInt8 :=
  match mem[p]? with
  | some x => .ok x
  | none => .error .ub

/-- GenericViewBase.hpp:131-134 `operator[]` -/
def View.index (dbg : Bool) (mem : List UInt8) (v : View) (n : Nat) : Res UInt8 :=
  if dbg ∧ n ≥ v.size then .error .throw else deref mem (v.ptr + n)

/-- GenericViewBase.hpp:136-139 `at` -/
def View.at (mem : List UInt8) (v : View) (n : Nat) : Res UInt8 :=
  if n ≥ v.size then .error .throw else deref mem (v.ptr + n)

/-- GenericViewBase.hpp:141-144 `front` -/
def View.front (dbg : Bool) (mem : List UInt8) (v : View) : Res UInt8 :=
  if dbg ∧ v.size = 0 then .error .throw else deref mem v.ptr

/-- GenericViewBase.hpp:146-149 `back` -/
def View.back (dbg : Bool) (mem : List UInt8) (v : View) : Res UInt8 :=
  if dbg ∧ v.size = 0 then .error .throw else deref mem (v.ptr + zsub v.size 1)

/-- GenericViewBase.hpp:155-158 `pop_back` -/
def View.popBack (dbg : Bool) (v : View) : Res View :=
  if dbg ∧ v.size = 0 then .error .throw else .ok { v with size := zsub v.size 1 }

/-- GenericViewBase.hpp:160-164 `pop_front` -/
def View.popFront (dbg : Bool) (v : View) : Res View :=
  if dbg ∧ v.size = 0 then .error .throw else .ok ⟨v.ptr + 1, zsub v.size 1⟩

/-- GenericViewBase.hpp:172-174 `clear` -/
def View.clear (v : View) : View := { v with size := 0 }

/-- GenericViewBase.hpp:176-186 `slice` -/
def View.slice (dbg : Bool) (v : View) (frm upto : Nat) : Res View :=
  let upto := if upto = npos then v.size else upto
  if dbg ∧ ¬ (frm ≤ upto ∧ frm ≤ v.size ∧ upto ≤ v.size) then .error .throw else .ok ⟨v.ptr + frm, zsub upto frm⟩

/-- GenericViewBase.hpp:188-194 `substr` -/
def View.substr (dbg : Bool) (v : View) (pos len : Nat) : Res View :=
  let len := if len = npos then zsub v.size pos else len
  v.slice dbg pos ((pos + len) % 2 ^ 64)

/-- GenericViewBase.hpp:196-198 `remove_prefix` -/
def View.removePrefix (dbg : Bool) (v : View) (n : Nat) : Res View := v.slice dbg n npos

/-- GenericViewBase.hpp:200-202 `remove_suffix` -/
def View.removeSuffix (dbg : Bool) (v : View) (n : Nat) : Res View := v.slice dbg 0 (zsub v.size n)

/-- `std::equal(first1, last1, first2)` with `n` elements -/
def stdEqual (m1 : List UInt8) (p1 : Nat) (m2 : List UInt8) (p2 : Nat) : Nat → Res Bool
  | 0 => .ok true
  | n + 1 =>
    match deref m1 p1, deref m2 p2 with
    | .ok a, .ok b => if a = b then stdEqual m1 (p1 + 1) m2 (p2 + 1) n else .ok false
    | _, _ => .error .ub

/-- `std::lexicographical_compare` on `n1` and `n2` elements -/
def stdLex (m1 : List UInt8) (m2 : List UInt8) : Nat → Nat → Nat → Nat → Res Bool
  | _, 0, _, n2 => .ok (decide (n2 ≠ 0))
  | _, _ + 1, _, 0 => .ok false
  | p1, n1 + 1, p2, n2 + 1 =>
    match deref m1 p1, deref m2 p2 with
    | .ok a, .ok b => if a < b then .ok true else if b < a then .ok false else stdLex m1 m2 (p1 + 1) n1 (p2 + 1) n2
    | _, _ => .error .ub

/-- GenericViewBase.hpp:225-228 `op_eq` -/
def opEq (m1 : List UInt8) (l : View) (m2 : List UInt8) (r : View) : Res Bool :=
  if l.size ≠ r.size then .ok false else stdEqual m1 l.ptr m2 r.ptr l.size

/-- GenericViewBase.hpp:230-232 `op_not_eq` -/
def opNe (m1 : List UInt8) (l : View) (m2 : List UInt8) (r : View) : Res Bool := (opEq m1 l m2 r).map (!·)

/-- GenericViewBase.hpp:234-236 `op_less` -/
def opLess (m1 : List UInt8) (l : View) (m2 : List UInt8) (r : View) : Res Bool := stdLex m1 m2 l.ptr l.size r.ptr r.size

/-- GenericViewBase.hpp:242-244 `op_greater` -/
def opGreater (m1 : List UInt8) (l : View) (m2 : List UInt8) (r : View) : Res Bool := stdLex m2 m1 r.ptr r.size l.ptr l.size

/-- GenericViewBase.hpp:238-240 `op_less_eq` -/
def opLe (m1 : List UInt8) (l : View) (m2 : List UInt8) (r : View) : Res Bool := (opGreater m1 l m2 r).map (!·)

/-- GenericViewBase.hpp:246-248 `op_greater_eq` -/
def opGe (m1 : List UInt8) (l : View) (m2 : List UInt8) (r : View) : Res Bool := (opLess m1 l m2 r).map (!·)

/-- GenericViewBase.hpp:204-206 `starts_with(c)` -/
def View.startsWithC (dbg : Bool) (m : List UInt8) (v : View) (c : UInt8) : Res Bool :=
  if v.size = 0 then .ok false else (v.front dbg m).map fun x => decide (x = c)

/-- GenericViewBase.hpp:213-215 `ends_with(c)` -/
def View.endsWithC (dbg : Bool) (m : List UInt8) (v : View) (c : UInt8) : Res Bool :=
  if v.size = 0 then .ok false else (v.back dbg m).map fun x => decide (x = c)

/-- GenericViewBase.hpp:208-211 `starts_with(view)` -/
def View.startsWith (dbg : Bool) (m : List UInt8) (v : View) (mx : List UInt8) (x : View) : Res Bool :=
  if x.size ≤ v.size then (v.slice dbg 0 x.size).bind fun y => opEq m y mx x else .ok false

/-- GenericViewBase.hpp:217-220 `ends_with(view)` -/
def View.endsWith (dbg : Bool) (m : List UInt8) (v : View) (mx : List UInt8) (x : View) : Res Bool :=
  if x.size ≤ v.size then (v.slice dbg (zsub v.size x.size) npos).bind fun y => opEq m y mx x else .ok false

/-- `[p, p + n)` copied into a vector -/
def copyOut (m : List UInt8) (p : Nat) : Nat → Res (List UInt8)
  | 0 => .ok []
  | n + 1 => (deref m p).bind fun x => (copyOut m (p + 1) n).map (x :: ·)

/-- GenericViewBase.hpp:78-80 `operator std::vector<T>` (and GenericConstU8View.hpp:287-289 `operator std::string`) -/
def View.toVector (m : List UInt8) (v : View) : Res (List UInt8) := copyOut m v.ptr v.size

/-- GenericConstView.hpp:313-327: `std::hash`; `hasher` is `std::hash<T>` -/
def View.hash (hasher : UInt8 → Nat) (m : List UInt8) (v : View) : Res Nat :=
  (copyOut m v.ptr v.size).map fun l =>
    l.foldl (fun seed x => seed ^^^ ((hasher x + 0x9e3779b9 + seed * 64 + seed / 4) % 2 ^ 64)) 0

/-- the operations that change a view or cut a new one from it -/
inductive Op where
  | popBack | popFront | clear
  | removePrefix (n : Nat) | removeSuffix (n : Nat)
  | slice (frm : Nat) (upto : Option Nat)
  | substr (pos : Nat) (len : Option Nat)
deriving DecidableEq, Repr

/-- one operation; `none` is the argument `npos` (the default) -/
def Op.run (dbg : Bool) (v : View) : Op → Res View
  | .popBack => v.popBack dbg
  | .popFront => v.popFront dbg
  | .clear => .ok v.clear
  | .removePrefix n => v.removePrefix dbg n
  | .removeSuffix n => v.removeSuffix dbg n
  | .slice a b => v.slice dbg a (b.getD npos)
  | .substr a l => v.substr dbg a (l.getD npos)

/-- a history of operations -/
def runOps (dbg : Bool) : View → List Op → Res View
  | v, [] => .ok v
  | v, o :: os => (o.run dbg v).bind fun v => runOps dbg v os

end VW
end Tdc
