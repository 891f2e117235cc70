import Verif.Model.LcpDec
import Verif.Model.LZSSLCP
import Verif.Model.Heap
import Verif.Model.LcpPLCP

/-!
# compressors/LCPCompressor.hpp and compressors/lcpcomp/compress: `lcpcomp`

Modelled strategies: ArraysComp (the default), MaxLCPStrategy with MaxLCPSuffixList, BoostHeap (the heap of the boost library is
modelled by its contract: `top` is a greatest element of the comparator), MaxHeapStrategy (with the model of ArrayMaxHeap),
PLCPPeaksStrategy, NaiveStrategy and BulldozerStrategy (the last two are not registered); PLCPStrategy is in Model/LcpPLCP.lean.

The arrays are lists of numbers. Values written to bit-packed vectors never exceed the values they had or the width they were
allocated with (`m_prev`, `m_next`, `m_lcp_index` hold numbers up to `m_undef`, allocated with `bits_for(m_undef)`), so no
truncation is modelled in this file.
-/

namespace Tdc
namespace LC

/-! ### `FactorBuffer` -/

/-- LZSSFactors.hpp:41-42: `m_sorted` after all `emplace_back` calls -/
def isSorted : List Factor → Bool
  | f :: g :: fs => decide (g.pos ≥ f.pos) && isSorted (g :: fs)
  | _ => true

/-- LZSSFactors.hpp:69-76 `sort` (`std::sort` is trusted to sort) -/
def sortFactors (fs : List Factor) : List Factor :=
  if isSorted fs then fs else fs.mergeSort (fun a b => decide (a.pos ≤ b.pos))

/-- LZSSFactors.hpp:94-96: `for j < f.len: fmap[f.pos + j] = i + 1` -/
def fmapMark (p v : Nat) : Nat → List Nat → Res (List Nat)
  | 0, m => .ok m
  | n + 1, m =>
    match vset m p v with
    | .error e => .error e
    | .ok m => fmapMark (p + 1) v n m

/-- LZSSFactors.hpp:92-97 -/
def fmapLoop : List Factor → Nat → List Nat → Res (List Nat)
  | [], _, m => .ok m
  | f :: fs, i, m =>
    match fmapMark f.pos (i + 1) f.len m with
    | .error e => .error e
    | .ok m => fmapLoop fs (i + 1) m

/-- LZSSFactors.hpp:105-120: follow the sources of a factor of length `len` (fuel: the loop need not end for cyclic factors);
`fs` are the factors with the changes made so far -/
def flattenSrc (fmap : List Nat) (fs : List Factor) (len : Nat) : Nat → Nat → Res Nat
  | 0, _ => .error .loop
  | fuel + 1, src =>
    if src < fmap.length then
      match vget fmap src with
      | .error e => .error e
      | .ok 0 => .ok src
      | .ok (j + 1) =>
        match vget fs j with
        | .error e => .error e
        | .ok s =>
          let d := src - s.pos
          if s.src + d + len ≤ s.src + s.len then flattenSrc fmap fs len fuel (s.src + d) else .ok src
    else .ok src

/-- LZSSFactors.hpp:102-128: `n` factors to go, `i` the next one; the factors are changed in place -/
def flattenLoop (fmap : List Nat) : Nat → Nat → List Factor → Res (List Factor)
  | 0, _, fs => .ok fs
  | n + 1, i, fs =>
    match vget fs i with
    | .error e => .error e
    | .ok f =>
      match flattenSrc fmap fs f.len (fmap.length + 2) f.src with
      | .error e => .error e
      | .ok src => flattenLoop fmap n (i + 1) (fs.set i { f with src := src })

/-- LZSSFactors.hpp:79-132 `flatten` -/
def flatten (fs : List Factor) : Res (List Factor) :=
  match fs.getLast? with
  | none => .ok fs
  | some last =>
    match fmapLoop fs 0 (List.replicate (last.pos + last.len) 0) with
    | .error e => .error e
    | .ok fmap => flattenLoop fmap fs.length 0 fs

/-! ### ArraysComp -/

/-- ArraysComp.hpp:99-101: `lcp[isa[pos_target + k]] = 0` -/
def eraseLoop (isa : List Nat) (p : Nat) : Nat → List Nat → Res (List Nat)
  | 0, lcp => .ok lcp
  | n + 1, lcp =>
    match vget isa p with
    | .error e => .error e
    | .ok i =>
      match vset lcp i 0 with
      | .error e => .error e
      | .ok lcp => eraseLoop isa (p + 1) n lcp

/-- ArraysComp.hpp:103-109: `lcp[isa[pos_target - k - 1]] = min(k+1, …)` for `k, k+1, …` (`n` of them) -/
def clipLoop (isa : List Nat) (p : Nat) : Nat → Nat → List Nat → Res (List Nat)
  | 0, _, lcp => .ok lcp
  | n + 1, k, lcp =>
    match vget isa (p - k - 1) with
    | .error e => .error e
    | .ok i =>
      match vget lcp i with
      | .error e => .error e
      | .ok x =>
        match vset lcp i (min (k + 1) x) with
        | .error e => .error e
        | .ok lcp => clipLoop isa p n (k + 1) lcp

structure AState where
  lcp : List Nat
  cand : List (List Nat)
  fs : List Factor

/-- `cand[c].push_back(i)` -/
def pushCand (cand : List (List Nat)) (c i : Nat) : Res (List (List Nat)) :=
  match vget cand c with
  | .error e => .error e
  | .ok l => vset cand c (l ++ [i])

/-- ArraysComp.hpp:55-58: `for(i = 1; i < sa.size(); ++i)`, `n` entries to go -/
def fillCand (lcp : List Nat) (th : Nat) : Nat → Nat → List (List Nat) → Res (List (List Nat))
  | 0, _, cand => .ok cand
  | n + 1, i, cand =>
    match vget lcp i with
    | .error e => .error e
    | .ok x =>
      if x < th then fillCand lcp th n (i + 1) cand
      else
        match pushCand cand (x - th) i with
        | .error e => .error e
        | .ok cand => fillCand lcp th n (i + 1) cand

/-- ArraysComp.hpp:91-109: a new factor -/
def arraysFactor (A : TextArrays) (idx len : Nat) (st : AState) : Res AState :=
  if idx = 0 then .error .ub else
    match vget A.sa idx, vget A.sa (idx - 1) with
    | .ok p, .ok s =>
      match eraseLoop A.isa p len st.lcp with
      | .error e => .error e
      | .ok lcp =>
        match clipLoop A.isa p (min len p) 0 lcp with
        | .error e => .error e
        | .ok lcp => .ok { st with lcp := lcp, fs := st.fs ++ [⟨p, s, len⟩] }
    | _, _ => .error .ub

/-- ArraysComp.hpp:83-111: one candidate of the column for LCP value `m` -/
def arraysStep (A : TextArrays) (th m : Nat) (st : AState) (idx : Nat) : Res AState :=
  match vget st.lcp idx with
  | .error e => .error e
  | .ok v =>
    if v < m then
      if v < th then .ok st
      else
        match pushCand st.cand (v - th) idx with
        | .error e => .error e
        | .ok cand => .ok { st with cand := cand }
    else arraysFactor A idx v st

/-- ArraysComp.hpp:81-113: one column. During the loop the column itself does not grow (entries are pushed to smaller columns). -/
def arraysCol (A : TextArrays) (th m : Nat) (st : AState) : Res AState :=
  match vget st.cand (m - th) with
  | .error e => .error e
  | .ok col =>
    match col.foldlM (arraysStep A th m) st with
    | .error e => .error e
    | .ok st => .ok { st with cand := st.cand.set (m - th) [] }

/-- ArraysComp.hpp:72-114: `for(size_t maxlcp = …; maxlcp >= threshold; --maxlcp)`. For `threshold = 0` the loop goes on with
`maxlcp = 2^64 - 1` and reads `cand` out of bounds. -/
def arraysLoop (A : TextArrays) (th : Nat) : Nat → AState → Res AState
  | 0, st =>
    if 0 ≥ th then
      match arraysCol A th 0 st with
      | .error e => .error e
      | .ok _ => .error .ub
    else .ok st
  | m + 1, st =>
    if m + 1 ≥ th then
      match arraysCol A th (m + 1) st with
      | .error e => .error e
      | .ok st => arraysLoop A th m st
    else .ok st

/-- ArraysComp.hpp:35-118 `factorize`; `mx` is `lcp.max_lcp()` -/
def arraysComp (A : TextArrays) (mx th : Nat) : Res (List Factor) :=
  if mx + 1 ≤ th then .ok []
  else
    match fillCand A.lcp th (A.sa.length - 1) 1 (List.replicate (mx + 1 - th) []) with
    | .error e => .error e
    | .ok cand =>
      match arraysLoop A th mx ⟨A.lcp, cand, []⟩ with
      | .error e => .error e
      | .ok st => .ok st.fs

/-! ### The strategies with a priority queue

MaxLCPStrategy.hpp:61-95, BoostHeap.hpp:81-117 and MaxHeapStrategy.hpp:68-99 are the same loop over different queues. -/

/-- The queue operations of the three strategies. `keys` is the (writable) LCP array. -/
structure PQ (σ : Type) where
  keys : σ → List Nat
  size : σ → Nat
  getMax : σ → Res Nat
  contains : σ → Nat → Res Bool
  remove : σ → Nat → Res σ
  decrease : σ → Nat → Nat → Res σ

section
variable {σ : Type}

/-- "remove overlapped entries" (MaxLCPStrategy.hpp:73-78, BoostHeap.hpp:93-98, MaxHeapStrategy.hpp:80-82; the last one calls
`remove` unconditionally, which does nothing if the entry is not contained) -/
def pqErase (Q : PQ σ) (isa : List Nat) (p : Nat) : Nat → σ → Res σ
  | 0, q => .ok q
  | n + 1, q =>
    match vget isa p with
    | .error e => .error e
    | .ok i =>
      match Q.contains q i with
      | .error e => .error e
      | .ok b =>
        match (if b then Q.remove q i else .ok q) with
        | .error e => .error e
        | .ok q => pqErase Q isa (p + 1) n q

/-- the body of "correct intersecting entries" for `k` (MaxLCPStrategy.hpp:82-93, BoostHeap.hpp:102-115, MaxHeapStrategy.hpp:86-98) -/
def pqClip1 (Q : PQ σ) (isa : List Nat) (th p k : Nat) (q : σ) : Res σ :=
  match vget isa (p - k - 1) with
  | .error e => .error e
  | .ok i =>
    match Q.contains q i with
    | .error e => .error e
    | .ok false => .ok q
    | .ok true =>
      match vget (Q.keys q) i with
      | .error e => .error e
      | .ok x =>
        if (p - k - 1) + x > p then
          let l := p - (p - k - 1)
          if l ≥ th then Q.decrease q i l else Q.remove q i
        else .ok q

/-- "correct intersecting entries", `n = min(flen, fpos)` rounds -/
def pqClip (Q : PQ σ) (isa : List Nat) (th p : Nat) : Nat → Nat → σ → Res σ
  | 0, _, q => .ok q
  | n + 1, k, q =>
    match pqClip1 Q isa th p k q with
    | .error e => .error e
    | .ok q => pqClip Q isa th p n (k + 1) q

/-- the body of the main loop: the factor and the queue after it -/
def pqStep (Q : PQ σ) (A : TextArrays) (th : Nat) (q : σ) : Res (Factor × σ) :=
  match Q.getMax q with
  | .error e => .error e
  | .ok m =>
    if m = 0 then .error .ub else
      match vget A.sa m, vget A.sa (m - 1), vget (Q.keys q) m with
      | .ok p, .ok s, .ok len =>
        match pqErase Q A.isa p len q with
        | .error e => .error e
        | .ok q =>
          match pqClip Q A.isa th p (min len p) 0 q with
          | .error e => .error e
          | .ok q => .ok (⟨p, s, len⟩, q)
      | _, _, _ => .error .ub

/-- the main loop `while(size() > 0)` -/
def pqLoop (Q : PQ σ) (A : TextArrays) (th : Nat) : Nat → σ → Res (List Factor)
  | 0, _ => .error .loop
  | fuel + 1, q =>
    if Q.size q > 0 then
      match pqStep Q A th q with
      | .error e => .error e
      | .ok (f, q) =>
        match pqLoop Q A th fuel q with
        | .error e => .error e
        | .ok fs => .ok (f :: fs)
    else .ok []

end

/-! ### MaxLCPSuffixList -/

/-- MaxLCPSuffixList.hpp:18-37 -/
structure ML where
  lcp : List Nat
  undef : Nat
  first : Nat
  last : Nat
  prev : List Nat
  next : List Nat
  idx : List Nat
  cont : List Bool
  size : Nat
deriving DecidableEq, Repr

/-- MaxLCPSuffixList.hpp:40-50 `lookup_lcp_index` -/
def mlLookup (idx : List Nat) (undef : Nat) : Nat → Res Nat
  | 0 => .ok undef
  | l + 1 =>
    match vget idx l with
    | .error e => .error e
    | .ok r => if r = undef then mlLookup idx undef l else .ok r

/-- `if(y != m_undef) v[y] = x;` (MaxLCPSuffixList.hpp:87-89, 102-104, 131-133, 138-140) -/
def setUnless (undef : Nat) (v : List Nat) (y x : Nat) : Res (List Nat) := if y ≠ undef then vset v y x else .ok v

/-- MaxLCPSuffixList.hpp:85-95: insert at the end -/
def ML.linkEnd (st : ML) (i : Nat) : Res ML := do
  let next ← setUnless st.undef st.next st.last i
  let next ← vset next i st.undef
  let prev ← vset st.prev i st.last
  pure { st with next := next, prev := prev, last := i }

/-- MaxLCPSuffixList.hpp:96-110: insert before `pos` -/
def ML.linkBefore (st : ML) (i pos : Nat) : Res ML := do
  let pr ← vget st.prev pos
  let prev ← vset st.prev i pr
  let next ← vset st.next i pos
  let next ← setUnless st.undef next pr i
  let prev ← vset prev pos i
  pure { st with prev := prev, next := next, first := if pr ≠ st.undef then st.first else i }

/-- MaxLCPSuffixList.hpp:112-122; `m_lcp_index[lcp-1]` is out of bounds for `lcp = 0` -/
def ML.finishInsert (st : ML) (i l : Nat) : Res ML := do
  if l = 0 then throw Fault.ub
  let idx ← vset st.idx (l - 1) i
  let cont ← vset st.cont i true
  pure { st with idx := idx, first := if st.first = st.undef then i else st.first, cont := cont, size := st.size + 1 }

/-- MaxLCPSuffixList.hpp:85-110 -/
def ML.link (st : ML) (i pos : Nat) : Res ML := if pos = st.undef then st.linkEnd i else st.linkBefore i pos

/-- MaxLCPSuffixList.hpp:80-123 `insert` -/
def ML.insert (st : ML) (i : Nat) : Res ML := do
  let l ← vget st.lcp i
  let pos ← mlLookup st.idx st.undef l
  let st ← st.link i pos
  st.finishInsert i l

/-- MaxLCPSuffixList.hpp:130-143: unlink -/
def ML.unlink (st : ML) (i : Nat) : Res ML := do
  let pr ← vget st.prev i
  let nx ← vget st.next i
  let next ← setUnless st.undef st.next pr nx
  let nx' ← vget next i
  let prev ← setUnless st.undef st.prev nx' pr
  pure { st with next := next, prev := prev, first := if pr ≠ st.undef then st.first else nx,
                 last := if nx' ≠ st.undef then st.last else pr }

/-- MaxLCPSuffixList.hpp:146-154: the LCP index without `i` -/
def ML.dropIdx (st : ML) (i l : Nat) : Res ML := do
  if l = 0 then throw Fault.ub
  let x ← vget st.idx (l - 1)
  if x = i then
    let k ← vget st.next i
    if k ≠ st.undef then
      let lk ← vget st.lcp k
      let idx ← vset st.idx (l - 1) (if lk = l then k else st.undef)
      pure { st with idx := idx }
    else
      let idx ← vset st.idx (l - 1) st.undef
      pure { st with idx := idx }
  else pure st

/-- MaxLCPSuffixList.hpp:127-159 `remove` -/
def ML.remove (st : ML) (i : Nat) : Res ML := do
  let st ← st.unlink i
  let l ← vget st.lcp i
  let st ← st.dropIdx i l
  let cont ← vset st.cont i false
  pure { st with cont := cont, size := st.size - 1 }

/-- MaxLCPSuffixList.hpp:163-167 `decrease_key` -/
def ML.decrease (st : ML) (i v : Nat) : Res ML := do
  let st ← st.remove i
  let lcp ← vset st.lcp i v
  { st with lcp := lcp }.insert i

/-- MaxLCPSuffixList.hpp:71-75: insert every entry `≥ min_lcp`, `n` entries to go -/
def mlFill (th : Nat) : Nat → Nat → ML → Res ML
  | 0, _, st => .ok st
  | n + 1, i, st =>
    match vget st.lcp i with
    | .error e => .error e
    | .ok x =>
      if x ≥ th then
        match st.insert i with
        | .error e => .error e
        | .ok st => mlFill th n (i + 1) st
      else mlFill th n (i + 1) st

/-- MaxLCPSuffixList.hpp:54-76: the constructor -/
def ML.init (lcp : List Nat) (th mx : Nat) : Res ML :=
  let n := lcp.length
  mlFill th (n - 1) 1 ⟨lcp, n, n, n, List.replicate n n, List.replicate n n, List.replicate mx n, List.replicate n false, 0⟩

/-- the queue of MaxLCPStrategy -/
def mlQueue : PQ ML where
  keys := ML.lcp
  size := ML.size
  getMax := fun st => .ok st.first
  contains := fun st i => vget st.cont i
  remove := ML.remove
  decrease := ML.decrease

/-- MaxLCPStrategy.hpp:36-99 `factorize` -/
def maxLcpComp (A : TextArrays) (mx th : Nat) : Res (List Factor) :=
  match ML.init A.lcp th mx with
  | .error e => .error e
  | .ok st => pqLoop mlQueue A th (A.lcp.length + 1) st

/-! ### BoostHeap -/

/-- The pairing heap of boost with the comparator BoostHeap.hpp:51-63, by contract; `sa` is only used by the comparator.
`alive[i]`: `handles[i].node_ != nullptr`. -/
structure BH where
  lcp : List Nat
  sa : List Nat
  alive : List Bool
deriving DecidableEq, Repr

/-- BoostHeap.hpp:58-61: `i` comes before `j` at the top of the heap -/
def bhBetter (lcp sa : List Nat) (i j : Nat) : Bool :=
  if lcp.getD i 0 = lcp.getD j 0 then decide (sa.getD j 0 > sa.getD i 0) else decide (lcp.getD j 0 < lcp.getD i 0)

/-- `top()`: a contained index that no contained index precedes -/
def BH.top (h : BH) : Res Nat :=
  let xs := (List.range h.alive.length).filter fun i => h.alive.getD i false
  match xs with
  | [] => .error .ub
  | x :: xs => .ok (xs.foldl (fun m i => if bhBetter h.lcp h.sa i m then i else m) x)

/-- the queue of BoostHeap; `decrease` writes the LCP array first (BoostHeap.hpp:108-109), then restores the heap -/
def bhQueue : PQ BH where
  keys := BH.lcp
  size := fun h => h.alive.count true
  getMax := BH.top
  contains := fun h i => vget h.alive i
  remove := fun h i => if h.alive[i]? = some true then .ok { h with alive := h.alive.set i false } else .error .ub
  decrease := fun h i v =>
    match vset h.lcp i v with
    | .error e => .error e
    | .ok lcp => .ok { h with lcp := lcp }

/-- BoostHeap.hpp:72-76: initial content -/
def BH.init (A : TextArrays) (th : Nat) : BH :=
  ⟨A.lcp, A.sa, (List.range A.lcp.length).map fun i => decide (1 ≤ i ∧ A.lcp.getD i 0 ≥ th)⟩

/-- BoostHeap.hpp:38-118 `factorize` -/
def boostHeapComp (A : TextArrays) (_mx th : Nat) : Res (List Factor) :=
  pqLoop bhQueue A th (A.lcp.length + 1) (BH.init A th)

/-! ### MaxHeapStrategy -/

/-- the queue of MaxHeapStrategy: ArrayMaxHeap -/
def amhQueue : PQ AMH.Heap where
  keys := AMH.Heap.keys
  size := AMH.Heap.size
  getMax := AMH.Heap.getMax
  contains := AMH.Heap.contains
  remove := AMH.Heap.remove
  decrease := AMH.Heap.decreaseKey

/-- MaxHeapStrategy.hpp:58-61 -/
def amhFill (th : Nat) : Nat → Nat → AMH.Heap → Res AMH.Heap
  | 0, _, h => .ok h
  | n + 1, i, h =>
    match vget h.keys i with
    | .error e => .error e
    | .ok x =>
      if x ≥ th then
        match h.insert i with
        | .error e => .error e
        | .ok h => amhFill th n (i + 1) h
      else amhFill th n (i + 1) h

/-- MaxHeapStrategy.hpp:35-101 `factorize` -/
def maxHeapComp (A : TextArrays) (_mx th : Nat) : Res (List Factor) :=
  let cap := (A.lcp.drop 1).countP fun x => decide (x ≥ th)
  match amhFill th (A.lcp.length - 1) 1 (AMH.Heap.init A.lcp cap) with
  | .error e => .error e
  | .ok h => pqLoop amhQueue A th (A.lcp.length + 1) h

/-! ### PLCPPeaksStrategy -/

/-- PLCPPeaksStrategy.hpp:54: the condition for a factor at `i`; `last` is `last_replacement_pos` -/
def isPeak (plcp : List Nat) (th last i : Nat) : Res Bool :=
  match vget plcp i, vget plcp (i + 1) with
  | .ok x, .ok y =>
    if i = last then .ok (decide (x > y) && decide (x ≥ th))
    else
      match (if i = 0 then .error .ub else vget plcp (i - 1)) with
      | .error e => .error e
      | .ok w => .ok (decide (x > w) && decide (x > y) && decide (x ≥ th))
  | _, _ => .error .ub

/-- PLCPPeaksStrategy.hpp:52-78: the loop (fuel) -/
def peaksLoop (A : TextArrays) (plcp : List Nat) (th n : Nat) : Nat → Nat → Nat → Res (List Factor)
  | 0, _, _ => .error .loop
  | fuel + 1, last, i =>
    if i + 1 < n then
      match isPeak plcp th last i with
      | .error e => .error e
      | .ok true =>
        match vget plcp i, vget A.isa i with
        | .ok len, .ok k =>
          match (if k = 0 then .error .ub else vget A.sa (k - 1)) with
          | .error e => .error e
          | .ok s =>
            match peaksLoop A plcp th n fuel (i + len - 1) (i + len) with
            | .error e => .error e
            | .ok fs => .ok (⟨i, s, len⟩ :: fs)
        | _, _ => .error .ub
      | .ok false => peaksLoop A plcp th n fuel last (i + 1)
    else .ok []

/-- PLCPPeaksStrategy.hpp:34-80 `factorize` -/
def peaksComp (A : TextArrays) (plcp : List Nat) (th : Nat) : Res (List Factor) :=
  peaksLoop A plcp th A.sa.length (A.sa.length + 1) 0 0

/-! ### NaiveStrategy -/

/-- NaiveStrategy.hpp:53-59: no position of the target is marked (`n` to go, from `p` on) -/
def naiveFree (marked : List Bool) (p : Nat) : Nat → Res Bool
  | 0 => .ok true
  | n + 1 =>
    match vget marked p with
    | .error e => .error e
    | .ok true => .ok false
    | .ok false => naiveFree marked (p + 1) n

/-- `for(k < l) marked[p + k] = 1` (NaiveStrategy.hpp:67-69, BulldozerStrategy.hpp:105-107) -/
def markFrom (p : Nat) : Nat → List Bool → Res (List Bool)
  | 0, m => .ok m
  | n + 1, m =>
    match vset m p true with
    | .error e => .error e
    | .ok m => markFrom (p + 1) n m

/-- NaiveStrategy.hpp:48-77: the loop (fuel: for `threshold = 0` it need not end) -/
def naiveLoop (A : TextArrays) (th : Nat) : Nat → Nat → List Bool → Res (List Factor)
  | 0, _, _ => .error .loop
  | fuel + 1, i, marked =>
    if i + 1 < A.sa.length then
      match vget A.isa i with
      | .error e => .error e
      | .ok s =>
        match vget A.lcp s with
        | .error e => .error e
        | .ok l =>
          if l ≥ th then
            match naiveFree marked i l with
            | .error e => .error e
            | .ok false => naiveLoop A th fuel (i + 1) marked
            | .ok true =>
              match (if s = 0 then .error .ub else vget A.sa (s - 1)) with
              | .error e => .error e
              | .ok src =>
                match markFrom src l marked with
                | .error e => .error e
                | .ok marked =>
                  match naiveLoop A th fuel (i + l) marked with
                  | .error e => .error e
                  | .ok fs => .ok (⟨i, src, l⟩ :: fs)
          else naiveLoop A th fuel (i + 1) marked
    else .ok []

/-- NaiveStrategy.hpp:31-78 `factorize` -/
def naiveComp (A : TextArrays) (th : Nat) : Res (List Factor) :=
  naiveLoop A th (A.sa.length + 1) 0 (List.replicate A.sa.length false)

/-! ### BulldozerStrategy -/

/-- BulldozerStrategy.hpp:21-23 -/
structure Interval where
  p : Nat
  q : Nat
  l : Nat
deriving DecidableEq, Repr

/-- BulldozerStrategy.hpp:25-33 `IntervalComparator`, as the order `¬ (b < a)` for a stable sort (the order of equal intervals, which
`std::sort` leaves open, does not matter for the theorems) -/
def Interval.le (a b : Interval) : Bool := if b.p ≠ a.p then !decide (b.p < a.p) else !decide (b.l > a.l)

/-- BulldozerStrategy.hpp:67-72: the intervals of the entries `i, i + 1, …` (`n` of them) -/
def bdInduce (A : TextArrays) (th : Nat) : Nat → Nat → Res (List Interval)
  | 0, _ => .ok []
  | n + 1, i =>
    match vget A.lcp i with
    | .error e => .error e
    | .ok l =>
      if l ≥ th then
        match vget A.sa i, vget A.sa (i - 1) with
        | .ok a, .ok b =>
          match bdInduce A th n (i + 1) with
          | .error e => .error e
          | .ok r => .ok (⟨a, b, l⟩ :: ⟨b, a, l⟩ :: r)
        | _, _ => .error .ub
      else bdInduce A th n (i + 1)

/-- BulldozerStrategy.hpp:96-99: `while(l < x->l && x->q + l < n && !marked[x->q + l]) ++l` -/
def bdLen (marked : List Bool) (n q lmax : Nat) : Nat → Nat → Nat
  | 0, l => l
  | fuel + 1, l => if l < lmax ∧ q + l < n ∧ marked[q + l]? = some false then bdLen marked n q lmax fuel (l + 1) else l

/-- BulldozerStrategy.hpp:92-120: the loop over the intervals; after a factor, intervals that start before `bound` are skipped -/
def bdProcess (n th : Nat) : List Interval → Nat → List Bool → Res (List Factor)
  | [], _, _ => .ok []
  | x :: xs, bound, marked =>
    if x.p < bound then bdProcess n th xs bound marked
    else
      match vget marked x.q with
      | .error e => .error e
      | .ok true => bdProcess n th xs 0 marked
      | .ok false =>
        let l := bdLen marked n x.q x.l x.l 1
        if l ≥ th then
          match markFrom x.p l marked with
          | .error e => .error e
          | .ok marked =>
            match bdProcess n th xs (x.p + l) marked with
            | .error e => .error e
            | .ok fs => .ok (⟨x.p, x.q, l⟩ :: fs)
        else bdProcess n th xs 0 marked

/-- BulldozerStrategy.hpp:78-121 on the vector `intervals`. The `do ++x while(x->p < p + l)` of lines 110-113 is the `bound` of `bdProcess`. -/
def bdRun (n th : Nat) (intervals : List Interval) : Res (List Factor) :=
  bdProcess n th (intervals.mergeSort Interval.le) 0 (List.replicate n false)

/-- BulldozerStrategy.hpp:48-122 `factorize`. The vector that is filled (line 66) is local to the first phase and shadows the vector of
line 64, which is sorted and processed: that one is empty. -/
def bulldozerComp (A : TextArrays) (th : Nat) : Res (List Factor) :=
  match bdInduce A th (A.sa.length - 1) 1 with
  | .error e => .error e
  | .ok _ => bdRun A.sa.length th []

/-- `factorize` without the declaration of line 66 (not the code in the repository) -/
def bulldozerIntended (A : TextArrays) (th : Nat) : Res (List Factor) :=
  match bdInduce A th (A.sa.length - 1) 1 with
  | .error e => .error e
  | .ok intervals => bdRun A.sa.length th intervals

/-! ### LCPCompressor -/

/-- The PLCP array and `max_lcp()` (ds/PLCPFromPhi.hpp:55, ds/LCPFromPLCP.hpp:38), constructed as in `textDS` -/
def textPLCP (pk : Packs) (t : List UInt8) (sa : List Nat) : Res (List Nat × Nat) :=
  match phiFromSA t.length (packIf pk.sa (bitsFor t.length) sa) with
  | .error e => .error e
  | .ok phi =>
    match plcpFromPhi t (packIf pk.phi (bitsFor t.length) phi) with
    | .error e => .error e
    | .ok (plcp, mx) => .ok (packIf pk.plcp (bitsFor mx) plcp, mx)

/-- the strategies (etc/registry_config.py:145-156; `naive` and `bulldozer` are not registered) -/
inductive Strategy where
  | arrays | maxLcp | boostHeap | maxHeap | peaks | plcp | naive | bulldozer
deriving DecidableEq, Repr

/-- `strategy.factorize(text, threshold, factors)` -/
def Strategy.factorize (s : Strategy) (text : List UInt8) (A : TextArrays) (plcp : List Nat) (mx th : Nat) : Res (List Factor) :=
  match s with
  | .arrays => arraysComp A mx th
  | .maxLcp => maxLcpComp A mx th
  | .boostHeap => boostHeapComp A mx th
  | .maxHeap => maxHeapComp A mx th
  | .peaks => peaksComp A plcp th
  | .plcp => plcpComp text A th
  | .naive => naiveComp A th
  | .bulldozer => bulldozerComp A th

/-- LCPCompressor.hpp:112-127: factorize, sort, flatten if wanted -/
def lcpFactorsOf (s : Strategy) (flat : Bool) (pk : Packs) (th : Nat) (text : List UInt8) (sa : List Nat) : Res (List Factor) :=
  match textDS pk text sa, textPLCP pk text sa with
  | .ok A, .ok (plcp, mx) =>
    match s.factorize text A plcp mx th with
    | .error e => .error e
    | .ok fs => if flat then flatten (sortFactors fs) else .ok (sortFactors fs)
  | _, _ => .error .ub

/-! `encode_text` for factors that overlap (only MaxHeapStrategy produces them): differences of `size_t` wrap around. For ordered factors
this is `lzssEncode` (`lzssEncodeW_eq`). -/

/-- difference of two `size_t` -/
def wsub (a b : Nat) : Nat := (a + 2 ^ 64 - b) % 2 ^ 64

/-- compressors/lzss/LZSSCoding.hpp:30-37 -/
def fdistMaxLoopW (n : Nat) : List Factor → Nat → Nat → Nat
  | [], p, m => max m (wsub n p)
  | f :: fs, p, m => fdistMaxLoopW n fs (f.pos + f.len) (max m (wsub f.pos p))

/-- compressors/lzss/LZSSCoding.hpp:52-91 -/
def lzssBodyW (text : List UInt8) (fmin fmax fdist : Nat) : List Factor → Nat → List Token
  | [], p => if p < text.length then (.bit, 1) :: (.range 0 fdist, text.length - p) :: litTokens text p text.length else []
  | f :: fs, p =>
    (if f.pos = p then [(.bit, 0)] else [(.bit, 1), (.range 0 fdist, wsub f.pos p)]) ++
    litTokens text p f.pos ++
    [(.range 0 text.length, f.src), (.range fmin fmax, f.len)] ++
    lzssBodyW text fmin fmax fdist fs (max p f.pos + f.len)

/-- compressors/lzss/LZSSCoding.hpp:18-92 `encode_text` -/
def lzssEncodeW (text : List UInt8) (fs : List Factor) : List Token :=
  let fdist := fdistMaxLoopW text.length fs 0 0
  [(.range 0 (2 ^ 32 - 1), text.length), (.range 0 text.length, shortestFactor fs), (.range 0 text.length, longestFactor fs),
   (.range 0 text.length, fdist)] ++
  lzssBodyW text (shortestFactor fs) (longestFactor fs) fdist fs 0

/-- LCPCompressor.hpp:100-138 `compress` -/
def lcpCompress (c : UCoder) (s : Strategy) (flat : Bool) (pk : Packs) (th : Nat) (text : List UInt8) (sa : List Nat) : Res (List UInt8) :=
  match lcpFactorsOf s flat pk th text sa with
  | .error e => .error e
  | .ok fs => .ok (BitO.toBytes (c.encAll (lzssEncodeW text fs)))

/-- LCPCompressor.hpp:140-150 `decompress` -/
def lcpDecompress (c : UCoder) (d : DecName) (bytes : List UInt8) : Res (List UInt8) := lcpDecodeBits c d (bitsOf bytes)

end LC
end Tdc
