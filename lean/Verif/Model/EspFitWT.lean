import Verif.Model.EspD
import Verif.Model.EspWT

/-!
# compressors/esp/DRCoder.hpp: DRangeFit with wavelet trees (`wt = true`)

Words are natural numbers; differences `maxs[i] - mins[i]` are not negative, see `Lemmas/EspFitWT.lean`.
-/

namespace Tdc
namespace Esp

/-- esp/DRCoder.hpp:633-641: the largest of the values so far -/
def preMaxs : Nat → List Nat → List Nat
  | _, [] => []
  | mx, x :: l =>
    let mx := if x > mx then x else mx
    mx :: preMaxs mx l

/-- esp/DRCoder.hpp:643-654: from the right; the second component is `last` -/
def thrMaxs (close : Nat → Nat → Bool) : List Nat → List Nat × Nat
  | [] => ([], 2 ^ 64 - 1)
  | x :: l =>
    let (r, last) := thrMaxs close l
    let m := if close x last then last else x
    (m :: r, m)

/-- esp/DRCoder.hpp:628-654 -/
def fitMaxs (o : FitOpts) (l : List Nat) : List Nat :=
  let maxs := preMaxs 0 l
  match o.close with
  | none => maxs
  | some c => (thrMaxs c maxs).1

/-- esp/DRCoder.hpp:660-672: the minima (as changed by `zero_min`) and the ranges -/
def rangesLoop (zeroMin : Bool) : (lastMin : Nat) → (maxs mins : List Nat) → List (Nat × Nat)
  | lm, mx :: maxs, m :: mins =>
    let m := if zeroMin && decide (bitsFor (mx - m) = bitsFor (mx - 0)) && decide (lm = 0) then 0 else m
    let lm := if zeroMin then m else lm
    (m, mx - m) :: rangesLoop zeroMin lm maxs mins
  | _, _, _ => []

/-- esp/DRCoder.hpp:674-687: from the right -/
def smoothBack (close : Nat → Nat → Bool) : List Nat → List Nat × Nat
  | [] => ([], 0)
  | x :: l =>
    let (r, last) := smoothBack close l
    let m := if x < last then (if close x last then last else x) else x
    (m :: r, m)

/-- esp/DRCoder.hpp:688-699 -/
def smoothFwd (close : Nat → Nat → Bool) : Nat → List Nat → List Nat
  | _, [] => []
  | last, x :: l =>
    let m := if x < last then (if close x last then last else x) else x
    m :: smoothFwd close m l

/-- esp/DRCoder.hpp:674-699 -/
def smooth (o : FitOpts) (ranges : List Nat) : List Nat :=
  match o.close with
  | none => ranges
  | some c => smoothFwd c 0 (smoothBack c ranges).1

/-- esp/DRCoder.hpp:706-710, 801-805: how many entries of the list are `r`, from its start -/
def runLen (r : Nat) : List Nat → Nat
  | [] => 0
  | x :: l => if x = r then runLen r l + 1 else 0

/-- esp/DRCoder.hpp:746-753 `tnull`: the zeros at the end -/
def tnull (bv : List Bool) : Nat := (bv.reverse.takeWhile (fun b => !b)).length

/-- esp/DRCoder.hpp:743-760: one bit vector of a chunk of `n` values -/
def writeTrim (n : Nat) (bv : List Bool) : List Bool := writeInt (tnull bv) (bitsFor n) ++ bv.take (n - tnull bv)

/-- esp/DRCoder.hpp:704-765: the chunks of equal ranges; `diffs` are the values minus their minima. At most `fuel` chunks. -/
def wtChunks : (fuel : Nat) → (ranges diffs : List Nat) → Res (List Bool)
  | _, [], _ => .ok []
  | 0, _, _ => .error .loop
  | fuel + 1, r :: ranges, diffs =>
    let k := runLen r ranges + 1
    (makeWt (diffs.take k) r).bind fun bvs =>
      (wtChunks fuel (ranges.drop (k - 1)) (diffs.drop k)).bind fun rest => .ok ((bvs.flatMap (writeTrim k)) ++ rest)

/-- esp/DRCoder.hpp:534-575, 628-765 `DRangeFit::encode`, with `wt = true` -/
def fitWtEnc (o : FitOpts) (w : Nat) (l : List Nat) : Res (List Bool) :=
  let mr := rangesLoop o.zeroMin 0 (fitMaxs o l) (fitMins o l)
  let mins := mr.map Prod.fst
  let ranges := smooth o (mr.map Prod.snd)
  (encUD w w false mins).bind fun b1 =>
    (encUD w w true ranges).bind fun b2 =>
      (wtChunks ranges.length ranges (List.zipWith (· - ·) l mins)).bind fun b3 => .ok (b1 ++ b2 ++ b3)

/-- esp/DRCoder.hpp:822-830: one bit vector of a chunk of `n` values. If `tnull > n`, the loop bound is negative as a `size_t`. -/
def rdTrim (n : Nat) (bs : List Bool) : Res (List Bool × List Bool) :=
  let (t, bs) := rdInt 64 (bitsFor n) bs
  if t > n then .error .ub
  else
    let (bv, bs) := rdBitList (n - t) bs
    .ok (bv ++ List.replicate t false, bs)

/-- esp/DRCoder.hpp:819-831: `d` bit vectors -/
def rdTrims (n : Nat) : Nat → List Bool → Res (List (List Bool) × List Bool)
  | 0, bs => .ok ([], bs)
  | d + 1, bs => (rdTrim n bs).bind fun x => (rdTrims n d x.2).bind fun r => .ok (x.1 :: r.1, r.2)

/-- esp/DRCoder.hpp:811-816 -/
def fitLevels (range : Nat) : Nat := if range = 0 then bitsFor range - 1 else bitsFor range

/-- esp/DRCoder.hpp:799-843. At most `fuel` chunks. -/
def rdChunks : (fuel : Nat) → (ranges mins : List Nat) → List Bool → Res (List Nat × List Bool)
  | _, [], _, bs => .ok ([], bs)
  | 0, _, _, _ => .error .loop
  | fuel + 1, r :: ranges, mins, bs =>
    let k := runLen r ranges + 1
    (rdTrims k (fitLevels r) bs).bind fun x =>
      (recoverDxx x.1 k).bind fun vec =>
        if vec.length < k then .error .ub
        else
          (rdChunks fuel (ranges.drop (k - 1)) (mins.drop k) x.2).bind fun y =>
            .ok (List.zipWith (fun v m => (v + m) % 2 ^ 64) (vec.take k) (mins.take k) ++ y.1, y.2)

/-- esp/DRCoder.hpp:766-848 `DRangeFit::decode`, with `wt = true` -/
def fitWtDec (w n : Nat) (bs : List Bool) : Res (List Nat × List Bool) :=
  (decUD 64 w w false n bs).bind fun mins =>
    (decUD 64 w w true n mins.2).bind fun ranges => rdChunks ranges.1.length ranges.1 mins.1 ranges.2

/-- `DRangeFit` with `wt = true` -/
def DRangeFitWT (o : FitOpts) : DCoder where
  enc w _ l := fitWtEnc o w l
  dec w _ n bs := fitWtDec w n bs

end Esp
end Tdc
