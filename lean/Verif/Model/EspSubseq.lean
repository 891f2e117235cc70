import Verif.Model.EspWT

/-!
# Monotone subsequences: compressors/esp/SubseqStrategy.hpp, compressors/esp/MonotoneSubsequences.hpp (class `L`, `recover_D_from_encoding`) and
`DMonotonSubseq` of compressors/esp/DRCoder.hpp

`size_t` values are natural numbers. `std::stable_sort` is Lean's `List.mergeSort`, which is stable; statistics are left out.
-/

namespace Tdc
namespace Esp

/-- esp/MonotoneSubsequences.hpp:10-25 `sorted_indices` -/
def sortedIndices (l : List Nat) : List Nat := (List.range l.length).mergeSort fun a b => decide (l[a]?.getD 0 ≤ l[b]?.getD 0)

/-! ## SubSeqGreedy -/

/-- The doubly linked list `free_list`: pairs of the previous and the next link -/
abbrev FreeL := List (Nat × Nat)

/-- esp/SubseqStrategy.hpp:41-44: `k` entries from entry `i` on -/
def grInitLoop : (k i : Nat) → FreeL → FreeL
  | 0, _, fl => fl
  | k + 1, i, fl => grInitLoop k (i + 1) (fl.set i (i - 1, i + 1))

/-- esp/SubseqStrategy.hpp:38-63 for `n ≥ 1` indices; the dummies are the entries `n` and `n + 1` -/
def grInit (n : Nat) : FreeL :=
  let fl := grInitLoop (n - 2) 1 (List.replicate (n + 2) (0, 0))
  let fl := if n > 1 then (fl.set 0 (n, 1)).set (n - 1) (n - 2, n + 1) else fl.set 0 (n, n + 1)
  (fl.set n (n, 0)).set (n + 1) (n - 1, n + 1)

/-- esp/SubseqStrategy.hpp:76-86 `remove` -/
def grRemove (fl : FreeL) (link : Nat) : Res FreeL :=
  match fl[link]? with
  | none => .error .ub
  | some (prev, next) =>
    match fl[prev]? with
    | none => .error .ub
    | some p =>
      let fl := fl.set prev (p.1, next)
      match fl[next]? with
      | none => .error .ub
      | some q => .ok ((fl.set next (prev, q.2)).set link (link, link))

/-- esp/SubseqStrategy.hpp:95-97 -/
def grRemoveAll : FreeL → List Nat → Res FreeL
  | fl, [] => .ok fl
  | fl, x :: l => (grRemove fl x).bind fun fl => grRemoveAll fl l

/-- esp/SubseqStrategy.hpp:89-93 and esp/MonotoneSubsequences.hpp:224-226: the entries of `links` are set to `c` -/
def markAll (c : Nat) : List Nat → List Nat → Res (List Nat)
  | d, [] => .ok d
  | d, x :: l => if x < d.length then markAll c (d.set x c) l else .error .ub

/-- esp/SubseqStrategy.hpp:107-125: the links appended after `last` -/
def grInc (sis : List Nat) (fl : FreeL) (endDummy : Nat) : (fuel cstart last : Nat) → Res (List Nat)
  | 0, _, _ => .error .loop
  | fuel + 1, cstart, last =>
    match fl[cstart]? with
    | none => .error .ub
    | some e =>
      if e.2 = endDummy then .ok []
      else
        match sis[e.2]?, sis[last]? with
        | some a, some b => if a > b then (grInc sis fl endDummy fuel e.2 e.2).bind fun r => .ok (e.2 :: r) else grInc sis fl endDummy fuel e.2 last
        | _, _ => .error .ub

/-- esp/SubseqStrategy.hpp:131-144: the links appended after `last` -/
def grDec (sis : List Nat) (fl : FreeL) (startDummy : Nat) : (fuel cend last : Nat) → Res (List Nat)
  | 0, _, _ => .error .loop
  | fuel + 1, cend, last =>
    match fl[cend]? with
    | none => .error .ub
    | some e =>
      if e.1 = startDummy then .ok []
      else
        match sis[e.1]?, sis[last]? with
        | some a, some b => if a > b then (grDec sis fl startDummy fuel e.1 e.1).bind fun r => .ok (e.1 :: r) else grDec sis fl startDummy fuel e.1 last
        | _, _ => .error .ub

/-- esp/SubseqStrategy.hpp:102-167: the loop; `b` is reversed. At most `fuel` rounds. -/
def grLoop (sis : List Nat) : (fuel : Nat) → FreeL → (dpi : List Nat) → (counter : Nat) → (b : List Bool) → Res (List Nat × List Bool)
  | 0, _, _, _, _ => .error .loop
  | fuel + 1, fl, dpi, counter, b =>
    let s := sis.length
    match fl[s]?, fl[s + 1]? with
    | some st, some en =>
      if st.2 ≠ s + 1 then
        (grInc sis fl (s + 1) (s + 2) st.2 st.2).bind fun inc =>
          let inc := st.2 :: inc
          (grDec sis fl s (s + 2) en.1 en.1).bind fun dec =>
            let dec := (en.1 :: dec).reverse
            let seq := if inc.length ≥ dec.length then inc else dec
            (markAll counter dpi seq).bind fun dpi =>
              (grRemoveAll fl seq).bind fun fl => grLoop sis fuel fl dpi (counter + 1) ((!decide (inc.length ≥ dec.length)) :: b)
      else .ok (dpi, b.reverse)
    | _, _ => .error .ub

/-- esp/SubseqStrategy.hpp:33-171 `SubSeqGreedy::create_dpi_and_b_from_sorted_indices` (not called without indices, for which it is undefined) -/
def subseqGreedy (sis : List Nat) : Res (List Nat × List Bool) :=
  if sis.length = 0 then .error .ub
  else grLoop sis (sis.length + 1) (grInit sis.length) (List.replicate sis.length 999) 0 []

/-! ## SubSeqOptimal -/

/-- esp/MonotoneSubsequences.hpp:93-103 `L`, without `m_rebuild_A` (cleared before use) and `m_sindices` -/
structure LSt where
  linked : List Nat
  layers : List Nat
  reverse : Bool
  removed : Nat
  remaining : Nat
  free : List Nat
  freeStart : Nat
  freeEnd : Nat

/-- esp/MonotoneSubsequences.hpp:107-129 for `n ≥ 1` indices -/
def LSt.init (n : Nat) : LSt where
  linked := (List.range n).map fun i => i - 1
  layers := []
  reverse := false
  removed := 0
  remaining := n
  free := (List.range n).map fun i => if i < n - 1 then i + 1 else n - 1
  freeStart := 0
  freeEnd := n - 1

/-- esp/MonotoneSubsequences.hpp:65-80 `layers_A_search`: the `do` loop -/
def aSearch (a : List Nat) (piy : Nat) : (fuel start stop : Nat) → Res Nat
  | 0, _, _ => .error .loop
  | fuel + 1, start, stop =>
    let mid := (stop - start) / 2 + start
    match a[mid]? with
    | none => .error .ub
    | some y =>
      let start' := if y > piy then mid else start
      let stop' := if y > piy then stop else mid
      if stop' - start' > 1 then aSearch a piy fuel start' stop' else .ok start'

/-- esp/MonotoneSubsequences.hpp:82-91 `point_coord_for_link` -/
def pointFor (sis : List Nat) (reverse : Bool) (link : Nat) : Res (Nat × Nat) :=
  match sis[link]? with
  | none => .error .ub
  | some y => .ok (if reverse then sis.length - link - 1 else link, y)

/-- esp/MonotoneSubsequences.hpp:143-171: one link. `a` is `A`; its slice of `l + 1` entries is `layers.length + 1` entries long. -/
def rebuildStep (y link : Nat) (linked layers a : List Nat) : Res (List Nat × List Nat × List Nat) :=
  let l := layers.length
  (aSearch (a.take (l + 1)) y (l + 2) 0 (a.take (l + 1)).length).bind fun j =>
    let new := decide (j = l)
    if link < linked.length then
      let a := if a.length = j + 1 then .ok (a ++ [y]) else if j + 1 < a.length then .ok (a.set (j + 1) y) else (.error .ub : Res (List Nat))
      a.bind fun a =>
        if new then .ok (linked.set link link, layers ++ [link], a)
        else
          match layers[j]? with
          | none => .error .ub
          | some old => .ok (linked.set link old, layers.set j link, a)
    else .error .ub

/-- esp/MonotoneSubsequences.hpp:140-172 with `LayersIterator` (399-429): at most `fuel` links -/
def rebuildLoop (sis free : List Nat) (reverse : Bool) : (fuel front back : Nat) → (linked layers a : List Nat) → Res (List Nat × List Nat)
  | 0, _, _, _, _, _ => .error .loop
  | fuel + 1, front, back, linked, layers, a =>
    let link := if reverse then front else back
    let next := if reverse then free[front]? else linked[back]?
    match next with
    | none => .error .ub
    | some nx =>
      (pointFor sis reverse link).bind fun pi =>
        (rebuildStep pi.2 link linked layers a).bind fun r =>
          if front = back then .ok (r.1, r.2.1)
          else rebuildLoop sis free reverse fuel (if reverse then nx else front) (if reverse then back else nx) r.1 r.2.1 r.2.2

/-- esp/MonotoneSubsequences.hpp:131-172 `rebuild` -/
def LSt.rebuild (sis : List Nat) (s : LSt) (reverse : Bool) : Res LSt :=
  if s.remaining > 0 then
    (rebuildLoop sis s.free reverse (s.linked.length + 1) s.freeStart s.freeEnd s.linked [] [2 ^ 64 - 1]).bind fun r =>
      .ok { s with linked := r.1, layers := r.2, reverse := reverse }
  else .ok { s with layers := [], reverse := reverse }

/-- esp/MonotoneSubsequences.hpp:174-179 `dominates` -/
def dominates (sis : List Nat) (reverse : Bool) (lhs rhs : Nat) : Res Bool :=
  (pointFor sis reverse lhs).bind fun l => (pointFor sis reverse rhs).bind fun r => .ok (decide (l.1 > r.1) && decide (l.2 > r.2))

/-- esp/MonotoneSubsequences.hpp:201-210: the search in one layer -/
def lisSearch (sis linked : List Nat) (reverse : Bool) (below : Nat) : (fuel link : Nat) → Res Nat
  | 0, _ => .error .loop
  | fuel + 1, link =>
    (dominates sis reverse link below).bind fun d =>
      if d then .ok link
      else
        match linked[link]? with
        | none => .error .ub
        | some nx => lisSearch sis linked reverse below fuel nx

/-- esp/MonotoneSubsequences.hpp:192-211: `l` layers above the layer of `q` are left; the links found are put in front -/
def lisLoop (sis : List Nat) (s : LSt) : (l : Nat) → (q : Nat) → Res (List Nat)
  | 0, _ => .ok []
  | l + 1, q =>
    match s.layers[l]? with
    | none => .error .ub
    | some h =>
      (lisSearch sis s.linked s.reverse q (s.linked.length + 1) h).bind fun x => (lisLoop sis s l x).bind fun r => .ok (x :: r)

/-- esp/MonotoneSubsequences.hpp:183-219 `lis` with `k = layers_size()`: the links in the order after `std::reverse` -/
def LSt.lis (sis : List Nat) (s : LSt) : Res (List Nat) :=
  let k := s.layers.length
  if k = 0 then .ok []
  else
    match s.layers[k - 1]? with
    | none => .error .ub
    | some q => (lisLoop sis s (k - 1) q).bind fun r => .ok (q :: r)

/-- The variables of esp/MonotoneSubsequences.hpp:230-232 and the members changed -/
structure FreeSt where
  free : List Nat
  freeStart : Nat
  freeEnd : Nat
  cur : Nat
  prev : Nat
  next : Nat

/-- esp/MonotoneSubsequences.hpp:238-243: at most `fuel` steps -/
def freeWalk (remove : Nat) : Nat → FreeSt → Res FreeSt
  | 0, _ => .error .loop
  | fuel + 1, s =>
    if s.cur ≠ remove then
      match s.free[s.next]? with
      | none => .error .ub
      | some nx => freeWalk remove fuel { s with prev := s.cur, cur := s.next, next := nx }
    else .ok s

/-- esp/MonotoneSubsequences.hpp:237-275 `update_free_list` -/
def freeUpdate (s : FreeSt) (remove : Nat) : Res FreeSt :=
  (freeWalk remove (s.free.length + 1) s).bind fun s =>
    let hasPrev := decide (s.prev ≠ s.cur)
    let hasNext := decide (s.cur ≠ s.next)
    if hasPrev && hasNext then
      if s.prev < s.free.length then
        let free := s.free.set s.prev s.next
        match free[s.next]? with
        | none => .error .ub
        | some nx => .ok { s with free := free, cur := s.next, next := nx }
      else .error .ub
    else if hasPrev && !hasNext then
      if s.prev < s.free.length then
        let free := s.free.set s.prev s.prev
        match free[s.next]? with
        | none => .error .ub
        | some nx => .ok { s with free := free, freeEnd := s.prev, cur := s.next, next := nx }
      else .error .ub
    else if !hasPrev && hasNext then
      match s.free[s.next]? with
      | none => .error .ub
      | some nx => .ok { s with freeStart := s.next, prev := s.next, cur := s.next, next := nx }
    else .ok s

/-- esp/MonotoneSubsequences.hpp:277-287 -/
def freeUpdateAll : FreeSt → List Nat → Res FreeSt
  | s, [] => .ok s
  | s, x :: l => (freeUpdate s x).bind fun s => freeUpdateAll s l

/-- esp/MonotoneSubsequences.hpp:298-309: the previous links are put back into the linked list -/
def relink (free : List Nat) : (fuel link prev : Nat) → List Nat → Res (List Nat)
  | 0, _, _, _ => .error .loop
  | fuel + 1, link, prev, linked =>
    if link < linked.length then
      let linked := linked.set link prev
      match free[link]? with
      | none => .error .ub
      | some nx => if link = nx then .ok linked else relink free fuel nx link linked
    else .error .ub

/-- esp/MonotoneSubsequences.hpp:275: the order in which the links are removed -/
def isAscending : List Nat → Bool
  | a :: b :: _ => decide (a < b)
  | _ => true

/-- esp/MonotoneSubsequences.hpp:221-310 `remove_all_and_slice` -/
def LSt.removeAll (s : LSt) (links : List Nat) : Res LSt :=
  (markAll s.removed s.linked links).bind fun linked =>
    match s.free[s.freeStart]? with
    | none => .error .ub
    | some nx =>
      (freeUpdateAll ⟨s.free, s.freeStart, s.freeEnd, s.freeStart, s.freeStart, nx⟩ (if isAscending links then links else links.reverse)).bind fun f =>
        let remaining := s.remaining - links.length
        let linked := if remaining > 0 then relink f.free (f.free.length + 1) f.freeStart f.freeStart linked else .ok linked
        linked.bind fun linked => .ok ⟨linked, [], s.reverse, s.removed + 1, remaining, f.free, f.freeStart, f.freeEnd⟩

/-- esp/MonotoneSubsequences.hpp:443-463 with `tie_to_decreasing = false`; `b` is reversed. At most `fuel` rounds. -/
def optLoop (sis : List Nat) : Nat → LSt → (b : List Bool) → Res (List Nat × List Bool)
  | 0, _, _ => .error .loop
  | fuel + 1, s, b =>
    if s.remaining > 0 then
      (s.rebuild sis false).bind fun s =>
        (s.lis sis).bind fun inc =>
          (s.rebuild sis true).bind fun s =>
            if inc.length ≥ s.layers.length then (s.removeAll inc).bind fun s => optLoop sis fuel s (false :: b)
            else (s.lis sis).bind fun dec => (s.removeAll dec).bind fun s => optLoop sis fuel s (true :: b)
    else .ok (s.linked, b.reverse)

/-- esp/MonotoneSubsequences.hpp:436-468 `create_dpi_and_b_from_sorted_indices` (undefined without indices) -/
def subseqOptimal (sis : List Nat) : Res (List Nat × List Bool) :=
  if sis.length = 0 then .error .ub else optLoop sis (sis.length + 1) (LSt.init sis.length) []

/-! ## The coder -/

/-- esp/MonotoneSubsequences.hpp:470-482 `create_dsigma_from_dpi_and_sorted_indices`, from index `i` on -/
def dsigmaLoop (dpi : List Nat) : (i : Nat) → List Nat → List Nat → Res (List Nat)
  | _, [], out => .ok out
  | i, s :: sis, out =>
    match dpi[i]? with
    | none => .error .ub
    | some d => if s < out.length then dsigmaLoop dpi (i + 1) sis (out.set s d) else .error .ub

def dsigma (sis dpi : List Nat) : Res (List Nat) := dsigmaLoop dpi 0 sis (List.replicate sis.length 0)

/-- `size_t(-1)` -/
def npos : Nat := 2 ^ 64 - 1

/-- esp/MonotoneSubsequences.hpp:712-728: from entry `i` on; `ss_ll` and `ss_ll_front` -/
def recLists (b : List Bool) : (i : Nat) → List Nat → List Nat × List Nat → Res (List Nat × List Nat)
  | _, [], s => .ok s
  | i, k :: dpi, (ll, fr) =>
    match fr[k]? with
    | none => .error .ub
    | some root =>
      if i < ll.length then
        if root = npos then recLists b (i + 1) dpi (ll.set i i, fr.set k i)
        else
          match ll[root]?, b[k]? with
          | some nx, some bk => recLists b (i + 1) dpi ((ll.set root i).set i nx, if bk then fr.set k i else fr)
          | _, _ => .error .ub
      else .error .ub

/-- esp/MonotoneSubsequences.hpp:730-732 -/
def recFronts (ll : List Nat) : List Nat → Res (List Nat)
  | [] => .ok []
  | l :: fr =>
    match ll[l]? with
    | none => .error .ub
    | some x => (recFronts ll fr).bind fun r => .ok (x :: r)

/-- esp/MonotoneSubsequences.hpp:736-745: the entries from the last to the first; those behind are in `acc` -/
def recValues (ll bde : List Nat) : (rdsi : List Nat) → (fr acc : List Nat) → Res (List Nat)
  | [], _, acc => .ok acc
  | k :: rdsi, fr, acc =>
    match fr[k]? with
    | none => .error .ub
    | some front =>
      match ll[front]?, bde[front]? with
      | some nx, some v => recValues ll bde rdsi (fr.set k nx) (v :: acc)
      | _, _ => .error .ub

/-- esp/MonotoneSubsequences.hpp:697-746 `recover_D_from_encoding` -/
def recoverD (dpi dsi : List Nat) (b : List Bool) (bde : List Nat) : Res (List Nat) :=
  (recLists b 0 dpi (List.replicate dpi.length 0, List.replicate b.length npos)).bind fun s =>
    (recFronts s.1 s.2).bind fun fr => recValues s.1 bde dsi.reverse fr []

/-- esp/DRCoder.hpp:249-257: `n` numbers, or fewer if the stream ends -/
def rdSorted : Nat → Nat → List Bool → Res (List Nat × List Bool)
  | 0, _, bs => .ok ([], bs)
  | n + 1, last, bs =>
    if bs.length = 0 then .ok ([], bs)
    else (rdUnary bs).bind fun x =>
      (rdSorted n ((last + x.1) % 2 ^ 64) x.2).bind fun r => .ok ((last + x.1) % 2 ^ 64 :: r.1, r.2)

/-- esp/DRCoder.hpp:153-289 `DMonotonSubseq<subseq_t, d_coding_t>` -/
def DMonotonSubseq (subseq : List Nat → Res (List Nat × List Bool)) (d : DCoder) : DCoder where
  enc _ _ rhs :=
    let sis := sortedIndices rhs
    let bs := unaryDiffs 0 (sis.map fun i => rhs[i]?.getD 0)
    (subseq sis).bind fun r =>
      (dsigma sis r.1).bind fun dsi =>
        (d.enc (bitsFor (r.2.length - 1)) (r.2.length - 1) (r.1 ++ dsi)).bind fun c => .ok (bs ++ writeCInt r.2.length 7 ++ r.2 ++ c)
  dec _ _ n bs :=
    (rdSorted n 0 bs).bind fun bde =>
      (rdCInt 7 bde.2).bind fun bsz =>
        let (b, bs) := rdBitList bsz.1 bsz.2
        (d.dec (bitsFor (bsz.1 - 1)) (bsz.1 - 1) (n * 2) bs).bind fun c =>
          (recoverD (c.1.take n) ((c.1.drop n).take n) b bde.1).bind fun out => .ok (out, c.2)

end Esp
end Tdc
