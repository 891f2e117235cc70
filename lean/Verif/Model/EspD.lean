import Verif.Model.EspSorted

/-!
# compressors/esp/DRCoder.hpp: DPlain, DDiff, DRangeFit (without wavelet trees)

The 64 bit counters of the predicted sizes are natural numbers. `CHECK_EQ` ends the program when it fails, also in release builds; this outcome is
`.throw`.
-/

namespace Tdc
namespace Esp

/-! ## DPlain -/

/-- esp/DRCoder.hpp:82-86 -/
def dplainDec (w : Nat) : Nat → List Bool → List Nat × List Bool
  | 0, bs => ([], bs)
  | n + 1, bs =>
    let (x, bs) := rdInt 64 w bs
    let (l, bs) := dplainDec w n bs
    (x :: l, bs)

/-- esp/DRCoder.hpp:66-95 `DPlain` -/
def DPlain : DCoder where
  enc w _ l := .ok (l.flatMap fun x => writeInt x w)
  dec w _ n bs := .ok (dplainDec w n bs)

/-! ## Differences -/

/-- esp/DRCoder.hpp:315-319, 365-369: absolute differences of neighbours -/
def absDiffs : Nat → List Nat → List Nat
  | _, [] => []
  | last, x :: l => (if x ≥ last then x - last else last - x) :: absDiffs x l

/-- esp/DRCoder.hpp:379-393: the signs -/
def signs : Nat → List Nat → List Bool
  | _, [] => []
  | last, x :: l => (if last < x then [true] else if last > x then [false] else []) ++ signs x l

/-- esp/DRCoder.hpp:404-430: pairs of `value_counter` and `last_value` written -/
def udRuns : (valueCounter lastValue : Nat) → List Nat → List (Nat × Nat)
  | c, v, [] => if c > 0 then [(c, v)] else []
  | c, v, x :: l =>
    if x = v then udRuns (c + 1) v l
    else (if c > 0 then [(c, v)] else []) ++ udRuns 1 x l

/-- esp/DRCoder.hpp:323-325 -/
def udSignCount (l : List Nat) : Nat := (absDiffs 0 l).countP (fun d => decide (d ≠ 0))

/-- esp/DRCoder.hpp:329-332 -/
def udValCount (l : List Nat) : Nat := udSignCount l + (if l.head? = some 0 then 1 else 0)

/-- esp/DRCoder.hpp:334-335 `bits_unary` -/
def udBitsUnary (l : List Nat) : Nat := l.length + (absDiffs 0 l).sum + udSignCount l

/-- esp/DRCoder.hpp:336-338 `bits_binary` -/
def udBitsBinary (w dw : Nat) (l : List Nat) : Nat := udValCount l * (w + dw)

/-- esp/DRCoder.hpp:291-437 `encode_unary_diff` -/
def encUD (w dw : Nat) (sign : Bool) (l : List Nat) : Res (List Bool) :=
  if udBitsUnary l ≤ udBitsBinary w dw l then
    let ds := absDiffs 0 l
    let sg := if sign then signs 0 l else []
    if (ds.map (· + 1)).sum + sg.length = udBitsUnary l then .ok (true :: (ds.flatMap writeUnary ++ sg)) else .error .throw
  else
    let rs := udRuns 0 0 l
    if rs.length * (w + dw) = udBitsBinary w dw l ∧ rs.length = udValCount l then
      .ok (false :: rs.flatMap fun r => writeInt r.1 w ++ writeInt r.2 dw)
    else .error .throw

/-- esp/DRCoder.hpp:452-454 -/
def rdUnaries (vw : Nat) : Nat → List Bool → Res (List Nat × List Bool)
  | 0, bs => .ok ([], bs)
  | n + 1, bs => (rdUnary bs).bind fun x => (rdUnaries vw n x.2).bind fun r => .ok (x.1 % 2 ^ vw :: r.1, r.2)

/-- esp/DRCoder.hpp:456-471 -/
def rdSigns (vw : Nat) (sign : Bool) : Nat → List Nat → List Bool → List Nat × List Bool
  | _, [], bs => ([], bs)
  | last, d :: l, bs =>
    let (last, bs) :=
      if d ≠ 0 then
        if sign then
          let (b, bs) := rdBit bs
          (if b then (last + d) % 2 ^ 64 else (last + 2 ^ 64 - d) % 2 ^ 64, bs)
        else ((last + d) % 2 ^ 64, bs)
      else (last, bs)
    let (r, bs) := rdSigns vw sign last l bs
    (last % 2 ^ vw :: r, bs)

/-- esp/DRCoder.hpp:473-481: `n` entries are missing -/
def rdRuns (vw w dw : Nat) : Nat → Nat → List Bool → Res (List Nat × List Bool)
  | 0, _, _ => .error .loop
  | fuel + 1, n, bs =>
    if n = 0 then .ok ([], bs)
    else
      let (c, bs) := rdInt 64 w bs
      let (v, bs) := rdInt 64 dw bs
      if c > n then .error .ub
      else (rdRuns vw w dw fuel (n - c) bs).bind fun r => .ok (List.replicate c (v % 2 ^ vw) ++ r.1, r.2)

/-- esp/DRCoder.hpp:439-483 `decode_unary_diff` for a vector of `n` entries of `vw` bits -/
def decUD (vw w dw : Nat) (sign : Bool) (n : Nat) (bs : List Bool) : Res (List Nat × List Bool) :=
  let (u, bs) := rdBit bs
  if u then (rdUnaries vw n bs).bind fun r => .ok (rdSigns vw sign 0 r.1 r.2)
  else rdRuns vw w dw (n + bs.length + 1) n bs

/-- esp/DRCoder.hpp:485-511 `DDiff` -/
def DDiff : DCoder where
  enc w _ l := encUD w w true l
  dec w _ n bs := decUD 64 w w true n bs

/-! ## DRangeFit -/

/-- esp/DRCoder.hpp:551-560: the smallest of the remaining values -/
def sufMins : List Nat → List Nat × Nat
  | [] => ([], 2 ^ 64 - 1)
  | x :: l =>
    let (r, m) := sufMins l
    let m := if x < m then x else m
    (m :: r, m)

/-- esp/DRCoder.hpp:562-571. `close a b` is `perc_diff(a, b, threshold)`, a comparison of floating point numbers. -/
def thrMins (close : Nat → Nat → Bool) : Nat → List Nat → List Nat
  | _, [] => []
  | last, x :: l =>
    let m := if close x last then last else x
    m :: thrMins close m l

/-- esp/DRCoder.hpp:578-600: the minima (as changed by `zero_min`) and the numbers of bits, stored in 6 bits -/
def fitLoop (zeroMin : Bool) : (max lastMin : Nat) → List Nat → List Nat → List (Nat × Nat)
  | mx, lm, x :: l, m :: ms =>
    let mx := if x > mx then x else mx
    let m := if zeroMin && decide (bitsFor (mx - 0) = bitsFor (mx - m)) && decide (lm = 0) then 0 else m
    let lm := if zeroMin then m else lm
    (m, bitsFor (mx - m) % 2 ^ 6) :: fitLoop zeroMin mx lm l ms
  | _, _, _, _ => []

/-- esp/DRCoder.hpp:608-616 -/
def fitValues : List Nat → List (Nat × Nat) → List Bool
  | x :: l, (m, b) :: r => writeInt (x - m) b ++ fitValues l r
  | _, _ => []

/-- The options of `DRangeFit` (esp/DRCoder.hpp:525-527); `none` is the default threshold. -/
structure FitOpts where
  close : Option (Nat → Nat → Bool)
  zeroMin : Bool

/-- esp/DRCoder.hpp:547-571 -/
def fitMins (o : FitOpts) (l : List Nat) : List Nat :=
  let mins := (sufMins l).1
  match o.close with
  | none => mins
  | some c => thrMins c 0 mins

/-- esp/DRCoder.hpp:534-627 `DRangeFit::encode`, with `wt = false` -/
def fitEnc (o : FitOpts) (w : Nat) (l : List Nat) : Res (List Bool) :=
  let mb := fitLoop o.zeroMin 0 0 l (fitMins o l)
  (encUD w w false (mb.map Prod.fst)).bind fun b1 =>
    (encUD w 64 true (mb.map Prod.snd)).bind fun b2 => .ok (b1 ++ b2 ++ fitValues l mb)

/-- esp/DRCoder.hpp:786-788 -/
def rdFit : List Nat → List Nat → List Bool → List Nat × List Bool
  | m :: ms, b :: br, bs =>
    let (x, bs) := rdInt 64 b bs
    let (r, bs) := rdFit ms br bs
    ((x + m) % 2 ^ 64 :: r, bs)
  | _, _, bs => ([], bs)

/-- esp/DRCoder.hpp:766-788 `DRangeFit::decode`, with `wt = false` -/
def fitDec (w n : Nat) (bs : List Bool) : Res (List Nat × List Bool) :=
  (decUD 64 w w false n bs).bind fun mins => (decUD 6 w 64 true n mins.2).bind fun br => .ok (rdFit mins.1 br.1 br.2)

/-- `DRangeFit` with `wt = false` -/
def DRangeFit (o : FitOpts) : DCoder where
  enc w _ l := fitEnc o w l
  dec w _ n bs := fitDec w n bs

end Esp
end Tdc
