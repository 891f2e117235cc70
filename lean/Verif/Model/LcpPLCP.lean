import Verif.Model.CompLCP
import Verif.Model.LZSSCoding

/-!
# compressors/lcpcomp/compress/PLCPStrategy.hpp: factorization by peaks of the PLCP array

The PLCP values come from the forward iterator over Sadakane's bit vector (Model/CompLCP.lean). The pairing heap of boost is modelled by
its contract: `top` is the greatest element for `Poi::operator<`. `handles` is a list of slots; slot `k` holds `(pos, lcp)` of the
element `*handles[k]` and is `none` when `handles[k].node_ == nullptr`; `Poi::no` is the slot number. `len_t` sums do not overflow here
(`pos + lcp` never exceeds the text length).
-/

namespace Tdc
namespace LC

abbrev Slot := Option (Nat × Nat)

/-- PLCPStrategy.hpp:55-59: `y < x`, i.e. `x` is nearer to the top. -/
def poiAbove (x y : Nat × Nat) : Bool := if x.2 = y.2 then decide (x.1 < y.1) else decide (y.2 < x.2)

/-- `heap.top()`: slot, position and lcp of the greatest element; `k` is the number of the first slot. -/
def poiTop : List Slot → Nat → Option (Nat × Nat × Nat)
  | [], _ => none
  | none :: hs, k => poiTop hs (k + 1)
  | some x :: hs, k =>
    match poiTop hs (k + 1) with
    | none => some (k, x.1, x.2)
    | some y => if poiAbove x y.2 then some (k, x.1, x.2) else some y

/-- PLCPStrategy.hpp:99-115: the peaks right of the top, whose factor ends at `b`; state `newlcp_peak`, `peak_exists`. -/
def poiRight (b : Nat) : List Slot → Nat → Bool → List Slot × Nat × Bool
  | [], nl, ex => ([], nl, ex)
  | none :: hs, nl, ex =>
    let r := poiRight b hs nl ex
    (none :: r.1, r.2)
  | some x :: hs, nl, ex =>
    if x.1 < b then
      let r := poiRight b hs (if x.2 + x.1 > b then max (x.2 + x.1 - b) nl else nl) ex
      (none :: r.1, r.2)
    else if x.1 = b then
      let r := poiRight b hs nl true
      (some x :: r.1, r.2)
    else (some x :: hs, nl, ex)

/-- PLCPStrategy.hpp:137-152: cut the peaks left of `a`; the argument is the list of slots from the last to the first. -/
def poiLeft (th a : Nat) : List Slot → List Slot
  | [] => []
  | none :: hs => none :: poiLeft th a hs
  | some x :: hs =>
    if x.1 > a then some x :: poiLeft th a hs
    else if a - x.1 < x.2 then (if a - x.1 < th then none else some (x.1, a - x.1)) :: poiLeft th a hs
    else some x :: hs

/-- PLCPStrategy.hpp:128-132: `handles[no+1] = heap.emplace(b, nl, no+1)`. The slot is outside of the vector, or in use (then the
element in use would stay in the heap without a handle; the model stops instead), only for `threshold = 0`. -/
def poiEmplace (hs : List Slot) (no : Nat) (x : Nat × Nat) : Res (List Slot) :=
  match hs[no + 1]? with
  | some none => .ok (hs.set (no + 1) (some x))
  | _ => .error .ub

/-- PLCPStrategy.hpp:95-132: the right side of the top element `(no, a, l)`. -/
def poiRightSide (th i : Nat) (hs : List Slot) (no a l : Nat) : Res (List Slot) :=
  let r := if a + l < i then poiRight (a + l) (hs.drop (no + 1)) 0 false else (hs.drop (no + 1), 0, false)
  let hs := hs.take (no + 1) ++ r.1
  if r.2.2 = false ∧ r.2.1 ≥ th then poiEmplace hs no (a + l, r.2.1) else .ok hs

/-- PLCPStrategy.hpp:89: `sa[isa[pos]-1]` -/
def poiSource (A : TextArrays) (pos : Nat) : Res Nat :=
  (vget A.isa pos).bind fun k => if k = 0 then .error .ub else vget A.sa (k - 1)

/-- PLCPStrategy.hpp:87-153: `while(!heap.empty())`, at most `fuel` rounds. -/
def poiFlush (A : TextArrays) (th i : Nat) : Nat → List Slot → Res (List Factor)
  | 0, _ => .error .loop
  | fuel + 1, hs =>
    match poiTop hs 0 with
    | none => .ok []
    | some (no, a, l) =>
      (poiSource A a).bind fun s =>
      (poiRightSide th i hs no a l).bind fun hs =>
      (poiFlush A th i fuel (poiLeft th a (hs.set no none).reverse).reverse).bind fun fs =>
      .ok (⟨a, s, l⟩ :: fs)

/-- the state of the outer loop (PLCPStrategy.hpp:62-72) -/
structure PLState where
  i : Nat
  it : CL.FwdIt
  hs : List Slot
  lastpos : Nat
  lastlcp : Nat

/-- PLCPStrategy.hpp:72-74: `while(pplcp.index() < i) pplcp.advance(); pplcp()` -/
def plRead (bv : RS.BV) (it : CL.FwdIt) (i : Nat) : Res (Nat × CL.FwdIt) :=
  (CL.nextSelect bv { it with idx := max it.idx i }).bind fun r => .ok (CL.sadaPos r.1 (max it.idx i), r.2)

/-- PLCPStrategy.hpp:71-165, at most `fuel` rounds. The second test of line 83 (`i+1 == n`) is never true inside of the loop. -/
def plLoop (A : TextArrays) (bv : RS.BV) (th n : Nat) : Nat → PLState → Res (List Factor)
  | 0, _ => .error .loop
  | fuel + 1, s =>
    if s.i + 1 < n then
      (plRead bv s.it s.i).bind fun r =>
        if poiTop s.hs 0 = none then
          if r.1 ≥ th then plLoop A bv th n fuel ⟨s.i + 1, r.2, s.hs ++ [some (s.i, r.1)], s.i, r.1⟩
          else plLoop A bv th n fuel { s with i := s.i + 1, it := r.2 }
        else if s.i - s.lastpos ≥ s.lastlcp ∨ s.i + 1 = n then
          (poiFlush A th s.i (s.hs.length + 1) s.hs).bind fun fs =>
          (plLoop A bv th n fuel { s with it := r.2, hs := [] }).bind fun gs => .ok (fs ++ gs)
        else if r.1 ≤ s.lastlcp then plLoop A bv th n fuel { s with i := s.i + 1, it := r.2 }
        else plLoop A bv th n fuel ⟨s.i + 1, r.2, s.hs ++ [some (s.i, r.1)], s.i, r.1⟩
    else .ok []

/-- PLCPStrategy.hpp:34-170 `factorize`; the pending peaks are dropped when the loop ends. -/
def plcpComp (text : List UInt8) (A : TextArrays) (th : Nat) : Res (List Factor) :=
  (CL.sadaText text A.sa).bind fun bits =>
    plLoop A (RS.BV.ofBits bits) th A.sa.length (2 * A.sa.length + 1) ⟨0, ⟨0, 0, 0⟩, [], 0, 0⟩

end LC
end Tdc
