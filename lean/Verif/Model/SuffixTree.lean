import Verif.Model.Trie

/-!
# ds/SuffixTree.hpp

Ukkonen's algorithm with the children of a node in an `unordered_map`.  Nodes are numbers that stand for addresses: 0 is the root, node 1 is never
used, new nodes get the next number.  `int` and `uint` are not reduced: texts are shorter than 2^31 characters.
-/

namespace Tdc
namespace Ukk

/-- ds/SuffixTree.hpp:70-105: the dynamic type of a node -/
inductive Kind where
  | leaf
  | inner
  deriving DecidableEq, Repr

/-- a member of one object changes -/
def upd {β : Type} (f : Nat → β) (v : Nat) (x : β) : Nat → β := fun u => if u = v then x else f u

/-- ds/SuffixTree.hpp:26-44, 70-105: all nodes and the members of the tree but the text.  `stop` is `end`; `pos1` is `pos + 1`; `last` is the node
allocated last; a pointer `last_added_sl` to the root is `sl = 0`; `suffix_link == NULL` is `none`. -/
structure S where
  kind : Nat → Option Kind
  start : Nat → Nat
  stop : Nat → Nat
  kid : Nat → UInt8 → Option Nat
  link : Nat → Option Nat
  suf : Nat → Nat
  last : Nat
  pos1 : Nat
  suffix : Nat
  remainder : Nat
  an : Nat
  ae : UInt8
  al : Nat
  sl : Nat

/-- ds/SuffixTree.hpp:109-127: the constructor -/
def init : S where
  kind := upd (fun _ => none) 0 (some .inner)
  start := fun _ => 0
  stop := fun _ => 0
  kid := fun _ _ => none
  link := fun _ => none
  suf := fun _ => 0
  last := 1
  pos1 := 0
  suffix := 0
  remainder := 0
  an := 0
  ae := 0
  al := 0
  sl := 0

/-- ds/SuffixTree.hpp:47-53 `add_sl` -/
def addSl (v : Nat) (s : S) : S := { s with link := if s.sl = 0 then s.link else upd s.link s.sl (some v), sl := v }

/-- ds/SuffixTree.hpp:59-69 `edge_length` -/
def edgeLength (s : S) (v : Nat) : Nat := if v = 0 then 0 else if s.stop v = 0 then s.pos1 - s.start v else s.stop v - s.start v

/-- ds/SuffixTree.hpp:195-205: go on with the next suffix -/
def nextSuffix (T : List UInt8) (s : S) : Res S :=
  if s.an = 0 ∧ 0 < s.al then
    (vget T (s.pos1 - (s.remainder - 1))).bind fun e => .ok { s with remainder := s.remainder - 1, al := s.al - 1, ae := e }
  else .ok { s with remainder := s.remainder - 1, an := (s.link s.an).getD 0 }

/-- ds/SuffixTree.hpp:155-160: a new leaf below the active node -/
def addLeaf (s : S) : S :=
  { s with
    kind := upd s.kind (s.last + 1) (some .leaf)
    start := upd s.start (s.last + 1) (s.pos1 - 1)
    stop := upd s.stop (s.last + 1) 0
    suf := upd s.suf (s.last + 1) s.suffix
    kid := upd s.kid s.an (fun ch => if ch = s.ae then some (s.last + 1) else s.kid s.an ch)
    last := s.last + 1
    suffix := s.suffix + 1 }

/-- ds/SuffixTree.hpp:183-191: the edge to `next` is split behind `active_length` characters; `d` is `Text[next->start]` afterwards -/
def splitEdge (c d : UInt8) (next : Nat) (s : S) : S :=
  { s with
    kind := upd (upd s.kind (s.last + 1) (some .inner)) (s.last + 2) (some .leaf)
    start := upd (upd (upd s.start (s.last + 1) (s.start next)) (s.last + 2) (s.pos1 - 1)) next (s.start next + s.al)
    stop := upd (upd s.stop (s.last + 1) (s.start next + s.al)) (s.last + 2) 0
    suf := upd s.suf (s.last + 2) s.suffix
    kid := upd (upd s.kid s.an (fun ch => if ch = s.ae then some (s.last + 1) else s.kid s.an ch)) (s.last + 1)
      (fun ch => if ch = d then some next else if ch = c then some (s.last + 2) else none)
    link := upd s.link (s.last + 1) none
    last := s.last + 2
    suffix := s.suffix + 1 }

/-- ds/SuffixTree.hpp:143-206: the body of the loop; `false` for `break` -/
def body' (T : List UInt8) (c : UInt8) (s : S) : Res (Bool × S) :=
  if s.kind s.an ≠ some .inner then .error .ub
  else match s.kid s.an s.ae with
  | none => (nextSuffix T (addSl s.an (addLeaf s))).bind fun s' => .ok (true, s')
  | some next =>
    if edgeLength s next ≤ s.al then
      (vget T (s.pos1 - 1 - (s.al - edgeLength s next))).bind fun e => .ok (true, { s with an := next, al := s.al - edgeLength s next, ae := e })
    else
      (vget T (s.start next + s.al)).bind fun d =>
        if d = c then .ok (false, addSl s.an { s with al := s.al + 1 })
        else (nextSuffix T (addSl (s.last + 1) (splitEdge c d next s))).bind fun s' => .ok (true, s')

/-- ds/SuffixTree.hpp:143-145: without an active length the active edge is the new character -/
def setEdge (c : UInt8) (s : S) : S := if s.al = 0 then { s with ae := c } else s

def body (T : List UInt8) (c : UInt8) (s : S) : Res (Bool × S) := body' T c (setEdge c s)

/-- ds/SuffixTree.hpp:142: `while(remainder > 0)` -/
def loop (T : List UInt8) (c : UInt8) : Nat → S → Res S
  | 0, _ => .error .loop
  | fuel + 1, s => if s.remainder = 0 then .ok s else (body T c s).bind fun r => if r.1 then loop T c fuel r.2 else .ok r.2

/-- ds/SuffixTree.hpp:136-140 -/
def begin (s : S) : S := { s with pos1 := s.pos1 + 1, remainder := s.remainder + 1, sl := 0 }

/-- ds/SuffixTree.hpp:136-209 `add_char`; every iteration but the last reduces `remainder + active_length` -/
def addChar (T : List UInt8) (c : UInt8) (s : S) : Res S := loop T c (s.remainder + s.al + 2) (begin s)

/-- ds/SuffixTree.hpp:219-221, 231-234: the loops of `append_string` and `append_input` -/
def addChars (T : List UInt8) : List UInt8 → S → Res S
  | [], s => .ok s
  | c :: cs, s => (addChar T c s).bind fun s' => addChars T cs s'

/-- the object: text and tree -/
structure Obj where
  text : List UInt8
  s : S

/-- ds/SuffixTree.hpp:109-127 -/
def empty : Obj := ⟨[], init⟩

/-- ds/SuffixTree.hpp:211-235: `append_char`, `append_string` and `append_input` -/
def append (x : List UInt8) (o : Obj) : Res Obj := (addChars (o.text ++ x) x o.s).bind fun s => .ok ⟨o.text ++ x, s⟩

/-- a sequence of calls -/
def appends : List (List UInt8) → Obj → Res Obj
  | [], o => .ok o
  | x :: xs, o => (append x o).bind fun o' => appends xs o'

end Ukk
end Tdc
