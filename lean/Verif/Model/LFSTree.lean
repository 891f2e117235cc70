import Verif.Model.LFS

/-!
# compressors/lfs/{SimSTStrategy,BSTStrategy,STStrategy}.hpp

The strategies visit a suffix tree: `sdsl::cst_sct3` (sim_st), `BinarySuffixTree` (bst) or `SuffixTree` (st).  Here the tree is a table of its
inner nodes; what is assumed of it is in `Spec/SuffixTree.lean`.  The lists of positions of the inner nodes are a vector (sim_st) or a hash map
(bst, st); both are tables of optional lists here.  Options are `uint`s (`unsigned short` in sim_st), `minLrf` is the value stored.
-/

namespace Tdc
namespace Lfs

/-- a child: a leaf with its suffix or an inner node -/
inductive Kid where
  | leaf (p : Nat)
  | node (v : Nat)
  deriving DecidableEq, Repr

/-- an inner node: string depth, string depth of the parent, children -/
structure Inner where
  depth : Nat
  up : Nat
  kids : List Kid
  deriving DecidableEq, Repr

/-- the inner nodes and the order in which they are put into the bins -/
structure Tree where
  nodes : List Inner
  order : List Nat
  deriving DecidableEq, Repr

/-! ## bins -/

/-- `while (size <= d) size *= 2` -/
def dbl (d : Nat) : Nat → Nat → Nat
  | 0, s => s
  | fuel + 1, s => if s ≤ d then dbl d fuel (2 * s) else s

/-- lfs/SimSTStrategy.hpp:178-185, lfs/BSTStrategy.hpp:53-55: the new size of the bins for depth `d` -/
def growLoop (s d : Nat) : Nat := dbl d (d + 1) s

/-- lfs/STStrategy.hpp:55-59: doubled once -/
def growOnce (s d : Nat) : Nat := if d ≥ s then 2 * s else s

/-- put `v` into bin `d` after growing; with `skip0` the root is not put into a bin (lfs/BSTStrategy.hpp:63-66, lfs/STStrategy.hpp:65-68) -/
def putBin (grow : Nat → Nat → Nat) (skip0 : Bool) (d v : Nat) (b : List (List Nat)) : Res (List (List Nat)) :=
  if skip0 && d == 0 then .ok (b ++ List.replicate (grow b.length d - b.length) [])
  else (vget (b ++ List.replicate (grow b.length d - b.length) []) d).bind fun q =>
    .ok ((b ++ List.replicate (grow b.length d - b.length) []).set d (q ++ [v]))

/-- lfs/SimSTStrategy.hpp:169-195, lfs/BSTStrategy.hpp:46-75, lfs/STStrategy.hpp:44-86: all inner nodes in the order of the traversal -/
def fillBins (grow : Nat → Nat → Nat) (skip0 : Bool) (t : Tree) : List Nat → List (List Nat) → Res (List (List Nat))
  | [], b => .ok b
  | v :: vs, b => (vget t.nodes v).bind fun nd => (putBin grow skip0 nd.depth v b).bind fun b' => fillBins grow skip0 t vs b'

/-! ## the positions of a node -/

/-- the lists of positions of the inner nodes -/
abbrev Begins := List (Option (List Nat))

/-- `std::inplace_merge` of two sorted ranges -/
def merge (a b : List Nat) : List Nat := List.merge a b (fun x y => x ≤ y)

/-- lfs/SimSTStrategy.hpp:219-242, lfs/BSTStrategy.hpp:188-209: the lists of the children are merged and given up, the leaves that are `alive` are
collected; with `map` a missing list becomes an empty one (`operator[]`).  Merging is done child by child here, in the code after all lists have
been appended. -/
def fromKids (alive : Nat → Res Bool) (map : Bool) : List Kid → List Nat → List Nat → Begins → Res (List Nat × List Nat × Begins)
  | [], acc, lv, bg => .ok (acc, lv, bg)
  | .leaf p :: ks, acc, lv, bg => (alive p).bind fun a => fromKids alive map ks acc (if a then lv ++ [p] else lv) bg
  | .node c :: ks, acc, lv, bg =>
    (vget bg c).bind fun e =>
      match e with
      | some (x :: l) => fromKids alive map ks (merge acc (x :: l)) lv (bg.set c none)
      | some [] => fromKids alive map ks acc lv bg
      | none => fromKids alive map ks acc lv (if map then bg.set c (some []) else bg)

/-- the list of node `v` is taken from the children: in the vector if it is empty (lfs/SimSTStrategy.hpp:212), in the map if it does not exist
(lfs/BSTStrategy.hpp:176) -/
def missing (map : Bool) : Option (List Nat) → Bool
  | none => true
  | some l => !map && l.isEmpty

/-- lfs/SimSTStrategy.hpp:212-258, lfs/BSTStrategy.hpp:171-229: the positions of node `v` and the new table -/
def gather (alive : Nat → Res Bool) (map : Bool) (t : Tree) (v : Nat) (bg : Begins) : Res (List Nat × Begins) :=
  (vget t.nodes v).bind fun nd => (vget bg v).bind fun e =>
    if missing map e then
      (fromKids alive map nd.kids [] [] bg).bind fun r => .ok (merge r.1 (sortPos r.2.1), r.2.2.set v (some (merge r.1 (sortPos r.2.1))))
    else .ok (e.getD [], bg)

/-- lfs/STStrategy.hpp:191-214: the lists of the children and all leaves are appended -/
def appendKids : List Kid → List Nat → Begins → Res (List Nat × Begins)
  | [], acc, bg => .ok (acc, bg)
  | .leaf p :: ks, acc, bg => appendKids ks (acc ++ [p]) bg
  | .node c :: ks, acc, bg =>
    (vget bg c).bind fun e =>
      match e with
      | some l => appendKids ks (acc ++ l) (bg.set c none)
      | none => appendKids ks acc bg

/-- lfs/STStrategy.hpp:181-229: the positions of node `v`; `positions.back()` needs one -/
def gatherST (t : Tree) (v : Nat) (bg : Begins) : Res (List Nat × Begins) :=
  (vget t.nodes v).bind fun nd => (vget bg v).bind fun e =>
    match e with
    | some l => .ok (l, bg)
    | none =>
      (appendKids nd.kids [] bg).bind fun r =>
        if r.1.isEmpty then .error .ub else .ok (sortPos r.1, r.2.set v (some (sortPos r.1)))

/-! ## selecting occurrences -/

/-- lfs/SimSTStrategy.hpp:53, lfs/BSTStrategy.hpp:100, lfs/STStrategy.hpp:110: does the occurrence begin behind the last one (`next = last + length`,
at first negative) and is it alive at both ends? -/
def free (dead : List Bool) (len next p : Nat) : Res Bool :=
  if next ≤ p then (vget dead p).bind fun a => if a then .ok false else (vget dead (p + len - 1)).bind fun b => .ok (!b) else .ok false

/-- lfs/SimSTStrategy.hpp:50-60, lfs/BSTStrategy.hpp:97-115, lfs/STStrategy.hpp:107-115: the selected positions and the others; with `alive` only the
living ones among the others (lfs/BSTStrategy.hpp:107-109) -/
def pick (alive : Bool) (dead : List Bool) (len : Nat) : Nat → List Nat → Res (List Nat × List Nat)
  | _, [] => .ok ([], [])
  | next, p :: ps =>
    (free dead len next p).bind fun f =>
      if f then (pick alive dead len (p + len) ps).bind fun r => .ok (p :: r.1, r.2)
      else
        (if alive then vget dead p else .ok false).bind fun a => (pick alive dead len next ps).bind fun r => .ok (r.1, if a then r.2 else p :: r.2)

/-- lfs/SimSTStrategy.hpp:66-68, lfs/STStrategy.hpp:120-122: `while(current + min_shorter < size && !dead[current + min_shorter]) min_shorter++` -/
def runOn (dead : List Bool) (p : Nat) : Nat → Nat → Res Nat
  | 0, _ => .error .loop
  | fuel + 1, ms => if p + ms < dead.length then (vget dead (p + ms)).bind fun b => if b then .ok ms else runOn dead p fuel (ms + 1) else .ok ms

/-- lfs/SimSTStrategy.hpp:63-71, lfs/STStrategy.hpp:117-125: `min_shorter` after all positions -/
def minShorter (dead : List Bool) (len : Nat) : List Nat → Nat → Res Nat
  | [], ms => .ok ms
  | p :: ps, ms =>
    if p < dead.length then
      (vget dead p).bind fun a =>
        if a then minShorter dead len ps ms
        else (vget dead (p + len - 1)).bind fun b =>
          if b then (runOn dead p (dead.length + 1) ms).bind fun ms' => minShorter dead len ps ms' else minShorter dead len ps ms
    else minShorter dead len ps ms

/-- the state of a strategy: lists of positions, bins, grammar -/
structure W where
  begins : Begins
  bins : List (List Nat)
  g : St
  deriving DecidableEq, Repr

/-- lfs/SimSTStrategy.hpp:76-90, lfs/STStrategy.hpp:129-144: put the node into the bin of the shorter factor -/
def readd (minLrf : Nat) (t : Tree) (len v ms : Nat) (bins : List (List Nat)) : Res (List (List Nat)) :=
  if ms < len ∧ minLrf ≤ ms then
    (vget t.nodes v).bind fun nd => if nd.up < ms then (vget bins ms).bind fun q => .ok (bins.set ms (q ++ [v])) else .ok bins
  else .ok bins

/-- `v.back() - v.front()` in `uint` -/
def spread (ps : List Nat) : Nat := sub32 (ps.getLastD 0) (ps.headD 0)

/-- `!dead[p]` -/
def notDead (dead : List Bool) (p : Nat) : Res Bool := (vget dead p).bind fun b => .ok (!b)

/-- lfs/SimSTStrategy.hpp:204-298: node `v` in bin `len` -/
def simStep (minLrf : Nat) (t : Tree) (len v : Nat) (w : W) : Res W :=
  (gather (notDead w.g.dead) false t v w.begins).bind fun x =>
    if x.1.isEmpty then .ok { w with begins := x.2 }
    else if x.1.length ≥ 2 ∧ spread x.1 < len then .ok { w with begins := x.2 }
    else
      (pick false w.g.dead len 0 x.1).bind fun r => (minShorter w.g.dead len x.1 1).bind fun ms => (readd minLrf t len v ms w.bins).bind fun bins =>
        if r.1.length ≥ 2 then (addRule len (r.1.headD 0) r.1 w.g).bind fun g => .ok ⟨x.2.set v (some r.2), bins, g⟩
        else .ok ⟨x.2, bins, w.g⟩

/-- lfs/BSTStrategy.hpp:231-237, lfs/STStrategy.hpp:232-241: may there be two occurrences? -/
def worth (dead : List Bool) (len : Nat) (ps : List Nat) : Res Bool :=
  if ps.length ≥ 2 ∧ spread ps ≥ len then
    (vget dead (ps.getLastD 0)).bind fun a => if a then .ok false else (vget dead (ps.headD 0)).bind fun b => .ok (!b)
  else .ok false

/-- lfs/BSTStrategy.hpp:164-270: node `v` in bin `len` -/
def bstStep (t : Tree) (len v : Nat) (w : W) : Res W :=
  (gather (notDead w.g.dead) true t v w.begins).bind fun x =>
    (worth w.g.dead len x.1).bind fun ok =>
      if ok then
        (pick true w.g.dead len 0 x.1).bind fun r =>
          if r.1.length ≥ 2 then (addRule len (r.1.headD 0) r.1 w.g).bind fun g => .ok ⟨x.2.set v (some r.2), w.bins, g⟩
          else .ok { w with begins := x.2 }
      else .ok { w with begins := x.2 }

/-- lfs/STStrategy.hpp:173-285: node `v` in bin `len` -/
def stStep (minLrf : Nat) (t : Tree) (len v : Nat) (w : W) : Res W :=
  (gatherST t v w.begins).bind fun x =>
    (worth w.g.dead len x.1).bind fun ok =>
      if ok then
        (pick false w.g.dead len 0 x.1).bind fun r => (minShorter w.g.dead len x.1 1).bind fun ms => (readd minLrf t len v ms w.bins).bind fun bins =>
          if r.1.length ≥ 2 then (addRule len (r.1.headD 0) r.1 w.g).bind fun g => .ok ⟨x.2, bins, g⟩
          else .ok ⟨x.2, bins, w.g⟩
      else .ok { w with begins := x.2 }

/-! ## all bins -/

/-- the nodes of a bin -/
def treeBin (step : Nat → Nat → W → Res W) (len : Nat) : List Nat → W → Res W
  | [], w => .ok w
  | v :: vs, w => (step len v w).bind fun w' => treeBin step len vs w'

/-- lfs/SimSTStrategy.hpp:203, lfs/BSTStrategy.hpp:161, lfs/STStrategy.hpp:170: `for(uint i = bins.size()-1; i>=min_lrf; i--)`; for `min_lrf = 0` the
counter wraps around behind bin 0 and `bins[UINT_MAX]` is read.  Nodes are only added to lower bins during the loop. -/
def treeBins (step : Nat → Nat → W → Res W) (minLrf : Nat) : Nat → W → Res W
  | 0, w => if minLrf = 0 then ((vget w.bins 0).bind fun vs => treeBin step 0 vs w).bind fun _ => .error .ub else .ok w
  | len + 1, w =>
    if minLrf ≤ len + 1 then (vget w.bins (len + 1)).bind fun vs => (treeBin step (len + 1) vs w).bind fun w' => treeBins step minLrf len w' else .ok w

/-- the state before the loop; `n` is the size of the text -/
def startW (t : Tree) (n : Nat) (bins : List (List Nat)) : W := ⟨List.replicate t.nodes.length none, bins, ⟨[], [], List.replicate n false⟩⟩

/-- lfs/SimSTStrategy.hpp:133-298 `compute_rules` -/
def simRules (minLrf : Nat) (t : Tree) (n : Nat) : Res (List (Nat × Nat) × List (Nat × Nat × Nat)) :=
  (fillBins growLoop false t t.order (List.replicate 200 [])).bind fun b =>
    (treeBins (simStep minLrf t) minLrf (b.length - 1) (startW t n b)).bind fun w => .ok (w.g.dict, w.g.nts.mergeSort ntLe)

/-- the largest depth of an inner node (lfs/BSTStrategy.hpp:59-61) -/
def maxDepth (t : Tree) : Nat := (t.order.filterMap fun v => (t.nodes[v]?).map (·.depth)).foldl max 0

/-- lfs/BSTStrategy.hpp:127-292 `compute_rules`; the bins are cut down to the largest depth -/
def bstRules (minLrf : Nat) (t : Tree) (n : Nat) : Res (List (Nat × Nat) × List (Nat × Nat × Nat)) :=
  (fillBins growLoop true t t.order (List.replicate 200 [])).bind fun b =>
    (treeBins (bstStep t) minLrf (maxDepth t) (startW t n (b.take (maxDepth t + 1)))).bind fun w => .ok (w.g.dict, w.g.nts.mergeSort ntLe)

/-- lfs/STStrategy.hpp:158-306 `compute_rules` -/
def stRules (minLrf : Nat) (t : Tree) (n : Nat) : Res (List (Nat × Nat) × List (Nat × Nat × Nat)) :=
  (fillBins growOnce true t t.order (List.replicate 200 [])).bind fun b =>
    (treeBins (stStep minLrf t) minLrf (b.length - 1) (startW t n b)).bind fun w => .ok (w.g.dict, w.g.nts.mergeSort ntLe)

end Lfs
end Tdc
