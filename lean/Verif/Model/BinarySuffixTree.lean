import Verif.Model.SuffixTree
import Verif.Model.TextDS

/-!
# ds/BinarySuffixTree.hpp

Ukkonen's algorithm on arrays: the children of a node are a list linked by `next_sibling`.  `int` and `uint` are not reduced: texts are shorter than
2^31 characters.  The argument `c` of `create_node` is not used there.
-/

namespace Tdc
namespace Bst

/-- ds/BinarySuffixTree.hpp:29-66: the members but the text; `stop` is `end`, `pos1` is `pos + 1` -/
structure B where
  first : List Nat
  sib : List Nat
  start : List Nat
  stop : List Nat
  link : List Nat
  suf : List Nat
  newNode : Nat
  pos1 : Nat
  cur : Nat
  remainder : Nat
  an : Nat
  ae : UInt8
  al : Nat
  sl : Nat
  deriving DecidableEq, Repr

/-- ds/BinarySuffixTree.hpp:70-77 `add_sl` -/
def addSl (v : Nat) (b : B) : Res B :=
  (if b.sl = 0 then .ok b.link else vset b.link b.sl v).bind fun l => .ok { b with link := l, sl := v }

/-- ds/BinarySuffixTree.hpp:79-88 `create_node` -/
def createNode (s e : Nat) (b : B) : Res B :=
  (vset b.start (b.newNode + 1) s).bind fun st => (vset b.stop (b.newNode + 1) e).bind fun en =>
    .ok { b with start := st, stop := en, newNode := b.newNode + 1 }

/-- ds/BinarySuffixTree.hpp:91-103 `reserve` for a text of `n` characters; without characters `size` is the largest number -/
def reserve (n : Nat) : Res B :=
  if n = 0 then .error .throw
  else .ok ⟨List.replicate (2 * n - 1) 0, List.replicate (2 * n - 1) 0, List.replicate (2 * n) 0, List.replicate (2 * n) 0, List.replicate (2 * n - 1) 0,
    List.replicate (2 * n) 0, 0, 0, 0, 0, 0, 0, 0, 0⟩

/-- ds/BinarySuffixTree.hpp:168-178 `edge_length` -/
def edgeLength (b : B) (v : Nat) : Res Nat :=
  if v = 0 then .ok 0
  else (vget b.stop v).bind fun e => (vget b.start v).bind fun s => .ok (if e = 0 then b.pos1 - s else e - s)

/-- ds/BinarySuffixTree.hpp:203-216: the loop over the children; the child found and `previous_sibling` -/
def findLoop (T : List UInt8) (b : B) (e : UInt8) : Nat → Nat → Nat → Res (Option Nat × Nat)
  | 0, _, _ => .error .loop
  | fuel + 1, prev, child =>
    (vget b.start child).bind fun s => (vget T s).bind fun ch =>
      if ch = e then .ok (some child, prev)
      else (vget b.sib child).bind fun nx => if nx = 0 then .ok (none, child) else findLoop T b e fuel child nx

/-- ds/BinarySuffixTree.hpp:200-217 -/
def find (T : List UInt8) (b : B) : Res (Option Nat × Nat) :=
  (vget b.first b.an).bind fun ch => if ch = 0 then .ok (none, ch) else findLoop T b b.ae (b.newNode + 1) ch ch

/-- ds/BinarySuffixTree.hpp:221-227: a new leaf behind `prev` -/
def addLeaf (prev : Nat) (b : B) : Res B :=
  (createNode (b.pos1 - 1) 0 b).bind fun b1 => (vset b1.suf b1.newNode b1.cur).bind fun su => (vget b1.first b1.an).bind fun f =>
    if f = 0 then (vset b1.first b1.an b1.newNode).bind fun fi => .ok { b1 with suf := su, cur := b1.cur + 1, first := fi }
    else (vset b1.sib prev b1.newNode).bind fun si => .ok { b1 with suf := su, cur := b1.cur + 1, sib := si }

/-- ds/BinarySuffixTree.hpp:259-266: the new node takes the place of `next` -/
def relink (split next prev : Nat) (b : B) : Res B :=
  (vget b.first b.an).bind fun f0 => (if f0 = 0 then vset b.first b.an split else .ok b.first).bind fun fi0 =>
    (vget fi0 b.an).bind fun f =>
      if f = next then (vset fi0 b.an split).bind fun fi => .ok { b with first := fi }
      else (vset b.sib prev split).bind fun si => .ok { b with first := fi0, sib := si }

/-- ds/BinarySuffixTree.hpp:252-272: the edge to `next` is split -/
def splitEdge (next prev : Nat) (b : B) : Res B :=
  (vget b.start next).bind fun sn => (createNode sn (sn + b.al) b).bind fun b1 => (vset b1.start next (sn + b1.al)).bind fun st =>
    (relink b1.newNode next prev { b1 with start := st }).bind fun b2 => (vset b2.first b2.newNode next).bind fun fi =>
      (vget b2.sib next).bind fun nn => (vset b2.sib b2.newNode nn).bind fun si => (createNode (b2.pos1 - 1) 0 { b2 with first := fi, sib := si }).bind fun b3 =>
        (vset b3.sib next b3.newNode).bind fun si' => (vset b3.suf b3.newNode b3.cur).bind fun su =>
          .ok { b3 with sib := si', suf := su, cur := b3.cur + 1 }

/-- ds/BinarySuffixTree.hpp:276-287: go on with the next suffix -/
def nextSuffix (T : List UInt8) (b : B) : Res B :=
  if b.an = 0 ∧ 0 < b.al then
    (vget T (b.pos1 - (b.remainder - 1))).bind fun e => .ok { b with remainder := b.remainder - 1, al := b.al - 1, ae := e }
  else (vget b.link b.an).bind fun l => .ok { b with remainder := b.remainder - 1, an := if l ≠ 0 then l else 0 }

/-- ds/BinarySuffixTree.hpp:193-288: the body of the loop; `false` for `break` -/
def body' (T : List UInt8) (c : UInt8) (b : B) : Res (Bool × B) :=
  (find T b).bind fun r =>
    match r.1 with
    | none => (addLeaf r.2 b).bind fun b1 => (addSl b1.an b1).bind fun b2 => (nextSuffix T b2).bind fun b3 => .ok (true, b3)
    | some next =>
      (edgeLength b next).bind fun el =>
        if el ≤ b.al then (vget T (b.pos1 - 1 - (b.al - el))).bind fun e => .ok (true, { b with an := next, al := b.al - el, ae := e })
        else
          (vget b.start next).bind fun s => (vget T (s + b.al)).bind fun d =>
            if d = c then (addSl b.an { b with al := b.al + 1 }).bind fun b1 => .ok (false, b1)
            else (splitEdge next r.2 b).bind fun b1 => (addSl (b1.newNode - 1) b1).bind fun b2 => (nextSuffix T b2).bind fun b3 => .ok (true, b3)

/-- ds/BinarySuffixTree.hpp:193-195 -/
def setEdge (c : UInt8) (b : B) : B := if b.al = 0 then { b with ae := c } else b

def body (T : List UInt8) (c : UInt8) (b : B) : Res (Bool × B) := body' T c (setEdge c b)

/-- ds/BinarySuffixTree.hpp:192: `while(remainder > 0)` -/
def loop (T : List UInt8) (c : UInt8) : Nat → B → Res B
  | 0, _ => .error .loop
  | fuel + 1, b => if b.remainder = 0 then .ok b else (body T c b).bind fun r => if r.1 then loop T c fuel r.2 else .ok r.2

/-- ds/BinarySuffixTree.hpp:186-290 `add_char`; every iteration but the last reduces `remainder + active_length` -/
def addChar (T : List UInt8) (c : UInt8) (b : B) : Res B :=
  loop T c (b.remainder + b.al + 2) { b with pos1 := b.pos1 + 1, remainder := b.remainder + 1, sl := 0 }

/-- ds/BinarySuffixTree.hpp:154-157 -/
def addChars (T : List UInt8) : List UInt8 → B → Res B
  | [], b => .ok b
  | c :: cs, b => (addChar T c b).bind fun b' => addChars T cs b'

/-- `vector::resize` -/
def resized (k : Nat) (l : List Nat) : List Nat := l.take k ++ List.replicate (k - l.length) 0

/-- ds/BinarySuffixTree.hpp:106-125 `resize` -/
def resize (b : B) : B :=
  { b with newNode := b.newNode + 1, start := resized (b.newNode + 1) b.start, stop := resized (b.newNode + 1) b.stop, first := resized (b.newNode + 1) b.first,
           sib := resized (b.newNode + 1) b.sib, suf := resized (b.newNode + 1) b.suf, link := [] }

/-- ds/BinarySuffixTree.hpp:127-160, 339-341: `compute` and the constructor.  `create_node(0, 0, 0)` for the root takes node 1, but the root is
node 0. -/
def build (T : List UInt8) : Res B :=
  (reserve T.length).bind fun b => (createNode 0 0 b).bind fun b => (addChars T T b).bind fun b => .ok (resize b)

end Bst
end Tdc
