import Verif.Model.Restrict

/-!
# io/Output.hpp, io/OutputStream.hpp, io/BackInsertStream.hpp, io/VectorStreamBuffer.hpp: output sinks

An `Output` names a sink (a byte vector, a file, an `std::ostream`) and opens streams on it. Simplification: a stream is opened, written to
and destroyed before the next one is opened on the same sink (a *session*), so that the buffering of `std::ofstream` does not show.
`acc`: the file can be opened for writing.
-/

namespace Tdc
namespace OUT

/-- Output.hpp:42-94 the variants -/
inductive Kind where
  | memory | file | stream
deriving DecidableEq, Repr

/-- Output.hpp:24-31, 61-64: variant, `m_overwrite` (files only), `m_restrictions` -/
structure Handle where
  kind : Kind
  overwrite : Bool
  restr : Restr
deriving DecidableEq, Repr

/-- Output.hpp:109-111 `Output(path, overwrite)` -/
def Handle.ofPath (overwrite : Bool) : Handle := ⟨.file, overwrite, Restr.make [] false⟩

/-- Output.hpp:116-117 `Output(buf)` -/
def Handle.ofMemory : Handle := ⟨.memory, false, Restr.make [] false⟩

/-- Output.hpp:122-123 `Output(stream)` -/
def Handle.ofStream : Handle := ⟨.stream, false, Restr.make [] false⟩

/-- Output.hpp:163-164 `Output(other, restrictions)`, with `unrestrict` (53-56, 74-77, 92-95) and the copying constructors (45-47, 66-69, 84-86) -/
def Handle.unrestrict (h : Handle) (r : Restr) : Handle := { h with restr := h.restr.or r }

/-- VectorStreamBuffer.hpp:27-34 `overflow`, for each character of what is written (`std::streambuf::xsputn` without a buffer) -/
def vecWrite (buf : List UInt8) : List UInt8 → List UInt8
  | [] => buf
  | c :: cs => vecWrite (buf ++ [c]) cs

/-- OutputStream.hpp:196-237 `as_stream` and 60-75 the constructor of the file variant: what opening does to the sink (`none`: no such file) -/
def Handle.open (acc : Bool) (h : Handle) (sink : Option (List UInt8)) : Res (List UInt8) :=
  match h.kind with
  | .file => if acc then .ok (if h.overwrite then [] else sink.getD []) else .error .throw
  | _ => .ok (sink.getD [])

/-- OutputStream.hpp:207-212 what opening, successful or not, does to the `Output` -/
def Handle.opened (h : Handle) : Handle :=
  match h.kind with
  | .file => { h with overwrite := false }
  | _ => h

/-- one session: the sink afterwards, and `tellp()` at the end of it (OutputStream.hpp:15-17, 37-39) for a memory sink -/
def Handle.session (acc : Bool) (h : Handle) (sink : Option (List UInt8)) (chunks : List (List UInt8)) : Res (List UInt8) :=
  (h.open acc sink).bind fun base => (writeUnrestricted h.restr chunks).map fun out => vecWrite base out

/-- OutputStream.hpp:37-39: `tellp` of a memory stream when the buffer holds `buf` -/
def tellpMemory (buf : List UInt8) : Nat := buf.length

/-- what a program does with one variable of type `Output`: `out.as_stream() << ...`, or `out = Output(out, r)` as in
tudocomp_driver.cpp:337 -/
inductive Step where
  | write (chunks : List (List UInt8))
  | restrict (bs : List UInt8) (nt : Bool)
deriving DecidableEq, Repr

/-- a program -/
def run (acc : Bool) : Handle → Option (List UInt8) → List Step → Res (Handle × Option (List UInt8))
  | h, sink, [] => .ok (h, sink)
  | h, sink, .write chunks :: l => (h.session acc sink chunks).bind fun s => run acc h.opened (some s) l
  | h, sink, .restrict bs nt :: l => run acc (h.unrestrict (Restr.make bs nt)) sink l

end OUT
end Tdc
