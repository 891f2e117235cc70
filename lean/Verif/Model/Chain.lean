import Verif.Model.Input

/-!
# Model of `Compressor`, `ChainCompressor` and the header handling of the command line driver
-/

namespace Tdc

/-- Compressor.hpp:17-43 with the restrictions its `meta()` announces (Meta.hpp:255-287, `textds_flags`).
`compress` is given an `Input`, `decompress` an unrestricted `Input` and the restrictions of the `Output`; both
results are the bytes that reach the sink. -/
structure Comp where
  /-- `textds_flags()` -/
  restr : Restr
  /-- `compress(input, output)`; the output is unrestricted -/
  compress : Inp → Res (List UInt8)
  /-- `decompress(input, output)` -/
  decompress : Inp → Restr → Res (List UInt8)

/-- How a compressor reads its input. -/
inductive Reading where
  /-- `input.as_view()` -/
  | view
  /-- `input.as_stream()` -/
  | stream

/-- io/Input.hpp:177-190 `as_view`, `as_stream` -/
def Inp.read (ps : Nat) : Reading → Inp → Res (List UInt8)
  | .view, i => i.asView ps
  | .stream, i => i.asStream ps

/-- A compressor that is not a chain: it reads its input completely (`rc`, `rd`), computes, and writes through one
`output.as_stream()`.  `c` and `d` are its computations on byte strings (the models in this project); `d` yields the
chunks it writes. -/
def leaf (ps : Nat) (restr : Restr) (rc rd : Reading) (c : List UInt8 → Res (List UInt8))
    (d : List UInt8 → Res (List (List UInt8))) : Comp where
  restr := restr
  compress i :=
    match i.read ps rc with
    | .error e => .error e
    | .ok v => c v
  decompress i r :=
    match i.read ps rd with
    | .error e => .error e
    | .ok v =>
      match d v with
      | .error e => .error e
      | .ok chunks => writeUnrestricted r chunks

/-- tudocomp_driver/ChainCompressor.hpp:68-81, the callback of `compress` (also tudocomp_driver.cpp:265-273):
the restrictions of the compressor are added to those of the input. -/
def runCompress (C : Comp) (i : Inp) : Res (List UInt8) :=
  if C.restr.hasNone then C.compress i else C.compress (i.restrict C.restr)

/-- tudocomp_driver/ChainCompressor.hpp:87-101, the callback of `decompress` (also tudocomp_driver.cpp:337-345);
io/Output.hpp:51-54 `Output(other, flags)` joins the restrictions. -/
def runDecompress (C : Comp) (i : Inp) (r : Restr) : Res (List UInt8) :=
  if C.restr.hasNone then C.decompress i r else C.decompress i (r.or C.restr)

/-- tudocomp_driver/ChainCompressor.hpp:13-103: `chain(first, second)`.  Its own `meta()` announces no restrictions;
the buffer between is unrestricted; `decompress` swaps the two (lines 34-36). -/
def chain (A B : Comp) : Comp where
  restr := ⟨[], false⟩
  compress i :=
    match runCompress A i with
    | .error e => .error e
    | .ok buf => runCompress B (Inp.ofSource (.view buf))
  decompress i r :=
    match runDecompress B i ⟨[], false⟩ with
    | .error e => .error e
    | .ok buf => runDecompress A (Inp.ofSource (.view buf)) r

/-! ## The driver -/

/-- The character `%`. -/
def percent : UInt8 := 37

/-- tudocomp_driver.cpp:256-273: `--algorithm id`, compressing; the `CHECK` of line 258 aborts. -/
def driverCompress (C : Comp) (id : List UInt8) (raw : Bool) (src : Source) : Res (List UInt8) :=
  if raw = false ∧ percent ∈ id then .error .throw
  else
    match runCompress C (Inp.ofSource src) with
    | .error e => .error e
    | .ok body => .ok (if raw then body else id ++ percent :: body)

/-- tudocomp_driver.cpp:285-307: the loop over the input; `n` is `sanity_size_check`, `err` the flag.  The result is
`algorithm_header`; the driver exits if `err` is set at the end. -/
def headerLoop : List UInt8 → Nat → Bool → List UInt8 → Res (List UInt8)
  | [], _, err, h => if err then .error .throw else .ok h
  | c :: cs, n, _, h =>
    if 1023 < n then .error .throw
    else if c = percent then .ok h
    else headerLoop cs (n + 1) true (h ++ [c])

/-- tudocomp_driver.cpp:274-345: `--decompress`.  `C` is the compressor selected by the header (`select` is the
registry) or, with `raw`, the one given. -/
def driverDecompress (ps : Nat) (select : List UInt8 → Res Comp) (raw : Option Comp) (src : Source) :
    Res (List UInt8) :=
  match raw with
  | some C => runDecompress C (Inp.ofSource src) ⟨[], false⟩
  | none =>
    match (Inp.ofSource src).asStream ps with
    | .error e => .error e
    | .ok v =>
      match headerLoop v 0 false [] with
      | .error e => .error e
      | .ok h =>
        match select h with
        | .error e => .error e
        | .ok C => runDecompress C ((Inp.ofSource src).slice (h.length + 1) none) ⟨[], false⟩

end Tdc
