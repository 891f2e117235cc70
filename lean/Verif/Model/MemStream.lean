import Verif.Model.Basic

/-!
# io/ViewStream.hpp: an `std::istream` over memory

`membuf` only overrides `seekpos` and `seekoff`; reading is `std::streambuf`'s own (`sgetc`, `sbumpc`; `underflow` says end of file).
`std::istream` is modelled by its two state bits and the members used on it: `get`, `clear`, `seekg` and `tellg` (C++11,
[istream.unformatted]: `seekg` clears `eofbit`; all of them call the buffer with `which = ios_base::in`; an operation on a stream that is
not good fails).

Pointers are addresses; memory outside `[beg, fin)` must not be read (`Fault.ub`). `dbg`: a build with `DCHECK`.
-/

namespace Tdc
namespace MS

/-- ViewStream.hpp:14-66 `membuf`: `eback()`, `gptr()`, `egptr()` -/
structure MemBuf where
  beg : Nat
  cur : Nat
  fin : Nat
deriving DecidableEq, Repr

/-- ViewStream.hpp:15-17 the constructor -/
def MemBuf.make (beg size : Nat) : MemBuf := ⟨beg, beg, beg + size⟩

/-- ViewStream.hpp:22-23 the copy constructor (26-27, the move constructor, is the same) -/
def MemBuf.copy (m : MemBuf) : MemBuf := MemBuf.make m.beg (m.fin - m.beg)

/-- `*p`; `mem` holds the bytes from `beg` to `fin` -/
def MemBuf.deref (m : MemBuf) (mem : List UInt8) (p : Nat) : Res UInt8 :=
  if m.beg ≤ p ∧ p < m.fin then
    match mem[p - m.beg]? with
    | some x => .ok x
    | none => .error .ub
  else .error .ub

/-- `std::streambuf::sbumpc` -/
def MemBuf.bump (m : MemBuf) (mem : List UInt8) : Res (Option UInt8 × MemBuf) :=
  if m.cur < m.fin then (m.deref mem m.cur).map fun x => (some x, { m with cur := m.cur + 1 }) else .ok (none, m)

/-- ViewStream.hpp:29-43 `seekpos`; `both`: `which` is `in | out`. `size_t + streampos` is computed in `unsigned long`. -/
def MemBuf.seekpos (dbg : Bool) (m : MemBuf) (sp : Int) (both : Bool) : Res (Int × MemBuf) :=
  if dbg ∧ both = false then .error .throw
  else
    let p := (((m.beg : Int) + sp) % 2 ^ 64).toNat
    if p > m.fin then .ok (-1, m) else .ok (sp, { m with cur := p })

/-- `std::ios_base::seekdir` -/
inductive Dir where
  | beg | cur | fin
deriving DecidableEq, Repr

/-- ViewStream.hpp:45-64 `seekoff` -/
def MemBuf.seekoff (dbg : Bool) (m : MemBuf) (off : Int) (way : Dir) (both : Bool) : Res (Int × MemBuf) :=
  let absPos : Int :=
    match way with
    | .beg => off
    | .cur => (m.cur : Int) - m.beg + off
    | .fin => (m.fin : Int) - m.beg - off
  m.seekpos dbg absPos both

/-- `std::istream`: buffer, `eofbit`, `failbit` -/
structure IStream where
  buf : MemBuf
  eof : Bool
  fail : Bool
deriving DecidableEq, Repr

/-- ViewStream.hpp:74-78 the constructor -/
def IStream.make (beg size : Nat) : IStream := ⟨MemBuf.make beg size, false, false⟩

/-- ViewStream.hpp:82-83 the copy constructor -/
def IStream.copy (s : IStream) : IStream := IStream.make s.buf.beg (s.buf.fin - s.buf.beg)

/-- calls on the stream -/
inductive Op where
  | get | clear | tellg
  | seekPos (p : Int)
  | seekOff (off : Int) (way : Dir)
deriving DecidableEq, Repr

/-- what a call returns -/
inductive Out where
  | byte (x : Option UInt8)
  | pos (p : Int)
  | none
deriving DecidableEq, Repr

/-- `seekg`, both overloads -/
def IStream.seekg (s : IStream) (seek : MemBuf → Res (Int × MemBuf)) : Res (Out × IStream) :=
  let s := { s with eof := false }
  if s.fail then .ok (.none, s)
  else (seek s.buf).map fun r => (.none, { s with buf := r.2, fail := decide (r.1 = -1) })

/-- one call -/
def Op.run (dbg : Bool) (mem : List UInt8) (s : IStream) : Op → Res (Out × IStream)
  | .get =>
    if s.eof ∨ s.fail then .ok (.byte none, { s with fail := true })
    else (s.buf.bump mem).map fun r =>
      match r.1 with
      | some x => (.byte (some x), { s with buf := r.2 })
      | none => (.byte none, { s with eof := true, fail := true })
  | .clear => .ok (.none, { s with eof := false, fail := false })
  | .tellg =>
    if s.eof ∨ s.fail then .ok (.pos (-1), { s with fail := true })
    else (s.buf.seekoff dbg 0 .cur false).map fun r => (.pos r.1, { s with buf := r.2 })
  | .seekPos p => s.seekg fun b => b.seekpos dbg p false
  | .seekOff o w => s.seekg fun b => b.seekoff dbg o w false

/-- a history of calls -/
def runOps (dbg : Bool) (mem : List UInt8) : IStream → List Op → Res (List Out × IStream)
  | s, [] => .ok ([], s)
  | s, o :: os => (o.run dbg mem s).bind fun r => (runOps dbg mem r.2 os).map fun q => (r.1 :: q.1, q.2)

end MS
end Tdc
