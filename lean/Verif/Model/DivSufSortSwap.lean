import Verif.Model.DivSufSortMerge

/-!
# Merging two blocks of B* substrings with a buffer: `ss_swapmerge`

util/divsufsort/divsufsort_ssort.hpp:489-680.

Simplifications: positions in the array are natural numbers; `x`, `p1`, `p2` of `ss_mergebackward`, which keep the signs and the values of `B[b]` and `B[c]`, are computed from
these cells when they are needed (the cells do not change in between); `check` and `next` are three bits; a loop without a counter gets a number of rounds, running out of which
is an error.
-/

namespace Tdc.DSS

variable (cell : Int → Int)

/-- divsufsort_ssort.hpp:503-508, 520-524: `do { B[a++] = B[b]; if(bufend <= b) { B[bufend] = t; return; } B[b++] = B[a]; } while(B[b] < 0);` and what comes after it -/
def ssFwdB (bufend : Nat) (t : Int) (k : Nat → Nat → List Int → Res (List Int)) : Nat → Nat → Nat → List Int → Res (List Int)
  | 0, _, _, _ => .error .loop
  | fuel + 1, a, b, B =>
    (sget B (b : Int)).bind fun v => (sset cell B (a : Int) v).bind fun B =>
    if bufend ≤ b then sset cell B (bufend : Int) t
    else (sget B ((a + 1 : Nat) : Int)).bind fun w => (sset cell B (b : Int) w).bind fun B => (sget B ((b + 1 : Nat) : Int)).bind fun u =>
      if u < 0 then ssFwdB bufend t k fuel (a + 1) (b + 1) B else k (a + 1) (b + 1) B

/-- divsufsort_ssort.hpp:509-517, 526-533: `do { B[a++] = B[c], B[c++] = B[a]; if(last <= c) { …; return; } } while(B[c] < 0);` and what comes after it -/
def ssFwdC (last bufend b : Nat) (t : Int) (k : Nat → Nat → List Int → Res (List Int)) : Nat → Nat → Nat → List Int → Res (List Int)
  | 0, _, _, _ => .error .loop
  | fuel + 1, a, c, B =>
    (ssRotUp cell 1 a c B).bind fun B =>
    if last ≤ c + 1 then
      (ssRotUp cell (bufend - b) (a + 1) b B).bind fun B => (sget B ((b + (bufend - b) : Nat) : Int)).bind fun v =>
      (sset cell B ((a + 1 + (bufend - b) : Nat) : Int) v).bind fun B => sset cell B ((b + (bufend - b) : Nat) : Int) t
    else (sget B ((c + 1 : Nat) : Int)).bind fun u => if u < 0 then ssFwdC last bufend b t k fuel (a + 1) (c + 1) B else k (a + 1) (c + 1) B

/-- divsufsort_ssort.hpp:501-535: the rounds of `ss_mergeforward` -/
def ssFwd (T : List UInt8) (PA depth : Int) (last bufend : Nat) (t : Int) : Nat → Nat → Nat → Nat → List Int → Res (List Int)
  | 0, _, _, _, _ => .error .loop
  | fuel + 1, a, b, c, B =>
    (sget B (b : Int)).bind fun v => (sget B (c : Int)).bind fun w => (ssCompareAt T PA B v w depth).bind fun r =>
    if r < 0 then ssFwdB cell bufend t (fun a b B => ssFwd T PA depth last bufend t fuel a b c B) (bufend + 1) a b B
    else if 0 < r then ssFwdC cell last bufend b t (fun a c B => ssFwd T PA depth last bufend t fuel a b c B) (last + 1) a c B
    else (sset cell B (c : Int) (inv w)).bind fun B =>
      ssFwdB cell bufend t (fun a b B => ssFwdC cell last bufend b t (fun a c B => ssFwd T PA depth last bufend t fuel a b c B) (last + 1) a c B) (bufend + 1) a b B

/-- divsufsort_ssort.hpp:489-536 `ss_mergeforward` -/
def ssMergeforward (T : List UInt8) (PA depth : Int) (first middle last buf : Nat) (B : List Int) : Res (List Int) :=
  (ssSwapRange cell (middle - first) buf first B).bind fun B => (sget B (first : Int)).bind fun t =>
  ssFwd cell T PA depth last (buf + (middle - first) - 1) t (last - first + 1) first buf middle B

/-- divsufsort_ssort.hpp:560: `if(x & 1) { do { B[a--] = B[b], B[b--] = B[a]; } while(B[b] < 0); x ^= 1; }`; the same with `c`, and again, in :567, :577, :581 -/
def ssRunBack : Nat → Nat → List Int → Res (Nat × Nat × List Int)
  | 0, a, B => (sget B 0).bind fun v => if v < 0 then .error .ub else .ok (a, 0, B)
  | b + 1, a, B =>
    (sget B ((b + 1 : Nat) : Int)).bind fun v =>
    if v < 0 then (ssRotDown cell 1 a (b + 1) B).bind fun B => ssRunBack b (a - 1) B else .ok (a, b + 1, B)

/-- divsufsort_ssort.hpp:560-563, 577-580, and what comes after it; `f` is nothing or the complement -/
def ssBackB (buf : Nat) (t : Int) (f : Int → Int) (k : Nat → Nat → List Int → Res (List Int)) (a b : Nat) (B : List Int) : Res (List Int) :=
  (ssRunBack cell b a B).bind fun (a, b, B) =>
  (sget B (b : Int)).bind fun v => (sset cell B (a : Int) (f v)).bind fun B =>
  if b ≤ buf then sset cell B (buf : Int) t
  else (sget B ((a - 1 : Nat) : Int)).bind fun w => (sset cell B (b : Int) w).bind fun B => k (a - 1) (b - 1) B

/-- divsufsort_ssort.hpp:567-573, 581-587, and what comes after it -/
def ssBackC (first buf b : Nat) (t : Int) (k : Nat → Nat → List Int → Res (List Int)) (a c : Nat) (B : List Int) : Res (List Int) :=
  (ssRunBack cell c a B).bind fun (a, c, B) => (ssRotDown cell 1 a c B).bind fun B =>
  if c ≤ first then
    (ssRotDown cell (b - buf) (a - 1) b B).bind fun B => (sget B ((b - (b - buf) : Nat) : Int)).bind fun v =>
    (sset cell B ((a - 1 - (b - buf) : Nat) : Int) v).bind fun B => sset cell B ((b - (b - buf) : Nat) : Int) t
  else k (a - 1) (c - 1) B

/-- divsufsort_ssort.hpp:557-593: the rounds of `ss_mergebackward` -/
def ssBack (T : List UInt8) (PA depth : Int) (first buf : Nat) (t : Int) : Nat → Nat → Nat → Nat → List Int → Res (List Int)
  | 0, _, _, _, _ => .error .loop
  | fuel + 1, a, b, c, B =>
    (sget B (b : Int)).bind fun v => (sget B (c : Int)).bind fun w => (ssCompareAt T PA B (unmark v) (unmark w) depth).bind fun r =>
    if 0 < r then ssBackB cell buf t (fun v => v) (fun a b B => ssBack T PA depth first buf t fuel a b c B) a b B
    else if r < 0 then ssBackC cell first buf b t (fun a c B => ssBack T PA depth first buf t fuel a b c B) a c B
    else ssBackB cell buf t inv (fun a b B => ssBackC cell first buf b t (fun a c B => ssBack T PA depth first buf t fuel a b c B) a c B) a b B

/-- divsufsort_ssort.hpp:538-594 `ss_mergebackward` -/
def ssMergebackward (T : List UInt8) (PA depth : Int) (first middle last buf : Nat) (B : List Int) : Res (List Int) :=
  (ssSwapRange cell (last - middle) buf middle B).bind fun B => (sget B ((last - 1 : Nat) : Int)).bind fun t =>
  ssBack cell T PA depth first buf t (last - first + 1) (last - 1) (buf + (last - middle) - 1) (middle - 1) B

/-- the bits 1, 2, 4 of `check` and `next` -/
structure Chk where
  b1 : Bool
  b2 : Bool
  b4 : Bool

/-- divsufsort_ssort.hpp:603-612 `MERGE_CHECK` -/
def ssMergeCheck (T : List UInt8) (PA depth : Int) (a b : Nat) (c : Chk) (B : List Int) : Res (List Int) :=
  let same := fun (p : Nat) (B : List Int) =>
    (sget B ((p : Int) - 1)).bind fun v => (sget B (p : Int)).bind fun w => (ssCompareAt T PA B (unmark v) w depth).bind fun r => Except.ok (decide (r = 0))
  let flip := fun (p : Nat) (B : List Int) => (sget B (p : Int)).bind fun v => sset cell B (p : Int) (inv v)
  ((if c.b1 then .ok true else if c.b2 then same a B else .ok false).bind fun q => if q then flip a B else .ok B).bind fun B =>
  (if c.b4 then same b B else .ok false).bind fun q => if q then flip b B else .ok B

/-- divsufsort_ssort.hpp:638-646: delivers `m` -/
def ssMid (T : List UInt8) (PA depth : Int) (middle : Nat) (B : List Int) : Nat → Nat → Nat → Nat → Res Nat
  | 0, _, _, _ => .error .loop
  | fuel + 1, m, len, half =>
    if 0 < len then
      (sget B ((middle + m + half : Nat) : Int)).bind fun v => (sget B ((middle : Int) - m - half - 1)).bind fun w =>
      (ssCompareAt T PA B (unmark v) (unmark w) depth).bind fun r =>
      if r < 0 then ssMid T PA depth middle B fuel (m + half + 1) (half - (1 - len % 2)) ((half - (1 - len % 2)) / 2) else ssMid T PA depth middle B fuel m half (half / 2)
    else .ok m

/-- divsufsort_ssort.hpp:658: `for(; B[r] < 0; ++r) { }` -/
def ssRunEnd (B : List Int) : Nat → Nat → Res Nat
  | 0, _ => .error .loop
  | fuel + 1, r => (sget B (r : Int)).bind fun v => if v < 0 then ssRunEnd B fuel (r + 1) else .ok r

/-- an entry of the stack, or the part at hand -/
structure SwapSeg where
  first : Nat
  middle : Nat
  last : Nat
  check : Chk

/-- divsufsort_ssort.hpp:649-670: swaps the middle and delivers the two parts: the one that goes on, and the one for the stack -/
def ssSwapSplit (s : SwapSeg) (m : Nat) (B : List Int) : Res (SwapSeg × SwapSeg × List Int) :=
  let lm := s.middle - m
  let rm := s.middle + m
  (ssSwapRange cell m lm s.middle B).bind fun B =>
  (if rm < s.last then (sget B (rm : Int)).bind fun v =>
      if v < 0 then (sset cell B (rm : Int) (inv v)).bind fun B =>
        if s.first < lm then (ssRunHead B s.middle).bind fun l => .ok (l, s.middle, (⟨true, false, true⟩ : Chk), B)
        else .ok (s.middle, s.middle, (⟨true, false, false⟩ : Chk), B)
      else if s.first < lm then (ssRunEnd B (B.length + 1) s.middle).bind fun r => .ok (s.middle, r, (⟨false, true, false⟩ : Chk), B)
      else .ok (s.middle, s.middle, (⟨false, false, false⟩ : Chk), B)
    else .ok (s.middle, s.middle, (⟨false, false, false⟩ : Chk), B)).bind fun (l, r, next, B) =>
  if l - s.first ≤ s.last - r then                                                                                 -- :663-665
    .ok (⟨s.first, lm, l, ⟨s.check.b1, s.check.b2, next.b4⟩⟩, ⟨r, rm, s.last, ⟨next.b1, next.b2, s.check.b4⟩⟩, B)
  else                                                                                                             -- :666-669
    let next : Chk := if next.b2 ∧ r = s.middle then ⟨next.b1, !next.b2, !next.b4⟩ else next
    .ok (⟨r, rm, s.last, ⟨next.b1, next.b2, s.check.b4⟩⟩, ⟨s.first, lm, l, ⟨s.check.b1, s.check.b2, next.b4⟩⟩, B)

/-- divsufsort_ssort.hpp:619-678: the stack has 32 entries (`SS_SMERGE_STACKSIZE`, divsufsort_private.hpp:72, the smaller of the two) -/
def ssSwapLoop (T : List UInt8) (PA depth : Int) (buf bufsize : Nat) : Nat → SwapSeg → List SwapSeg → List Int → Res (List Int)
  | 0, _, _, _ => .error .loop
  | fuel + 1, s, st, B =>
    let pop := fun (B : List Int) =>
      (ssMergeCheck cell T PA depth s.first s.last s.check B).bind fun B =>
      match st with
      | [] => .ok B
      | s :: st => ssSwapLoop T PA depth buf bufsize fuel s st B
    if s.last - s.middle ≤ bufsize then                                                                            -- :620-627
      (if s.first < s.middle ∧ s.middle < s.last then ssMergebackward cell T PA depth s.first s.middle s.last buf B else .ok B).bind pop
    else if s.middle - s.first ≤ bufsize then                                                                      -- :629-636
      (if s.first < s.middle then ssMergeforward cell T PA depth s.first s.middle s.last buf B else .ok B).bind pop
    else
      (ssMid T PA depth s.middle B (s.last - s.first + 1) 0 (min (s.middle - s.first) (s.last - s.middle)) (min (s.middle - s.first) (s.last - s.middle) / 2)).bind fun m =>
      if 0 < m then
        (ssSwapSplit cell s m B).bind fun (s', p, B) => if st.length < 32 then ssSwapLoop T PA depth buf bufsize fuel s' (p :: st) B else .error .ub
      else                                                                                                         -- :671-676
        (sget B ((s.middle : Int) - 1)).bind fun v => (sget B (s.middle : Int)).bind fun w => (ssCompareAt T PA B (unmark v) w depth).bind fun r =>
        (if r = 0 then sset cell B (s.middle : Int) (inv w) else .ok B).bind pop

/-- divsufsort_ssort.hpp:596-680 `ss_swapmerge` with `depth = 2` -/
def ssSwapmerge (T : List UInt8) (PA : Int) : SwapMerge := fun B first middle last buf bufsize =>
  ssSwapLoop cell T PA 2 buf bufsize (4 * (last - first) + 1) ⟨first, middle, last, ⟨false, false, false⟩⟩ [] B

end Tdc.DSS
