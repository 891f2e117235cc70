import Verif.Model.Restrict

/-!
# Model of `Input`: sources, slices, restrictions, views, streams, and the shared buffer of a stream source
-/

namespace Tdc

/-- io/InputSource.hpp:14-32: the three kinds of source with the bytes they deliver.  The content of a file
and of the memory behind a view does not change while the input is used (the code assumes this, too). -/
inductive Source where
  | view (bytes : List UInt8)
  | file (bytes : List UInt8)
  | stream (bytes : List UInt8)

/-- The bytes of a source. -/
def Source.bytes : Source → List UInt8
  | .view b => b
  | .file b => b
  | .stream b => b

/-- io/Input.hpp:44-48 the members of `Input::Variant` that determine its content; `none` is `npos`. -/
structure Inp where
  /-- `m_source` -/
  src : Source
  /-- `m_input_restrictions` -/
  restr : Restr
  /-- `m_from` -/
  frm : Nat
  /-- `m_to` -/
  upto : Option Nat

/-- io/Input.hpp:67, 118-159 `Input(source)` -/
def Inp.ofSource (s : Source) : Inp := ⟨s, ⟨[], false⟩, 0, none⟩

/-- io/InputSize.hpp:60-72 `slice` (`Input(other, from, to)`); no overflow of `size_t` is modelled. -/
def Inp.slice (i : Inp) (frm : Nat) (upto : Option Nat) : Inp :=
  let newFrom := i.frm + frm
  let newTo := match upto with
    | none => none
    | some x => some (i.frm + x)
  { i with frm := newFrom, upto := newTo }

/-- io/InputSize.hpp:74-78 `restrict` (`Input(other, restrictions)`) -/
def Inp.restrict (i : Inp) (r : Restr) : Inp := { i with restr := i.restr.or r }

/-! ## The buffer shared by all inputs over one stream -/

/-- io/InputAlloc.hpp:16, 136-212, 304-350: what the allocation pool knows about a stream source: the one full
copy of the stream with its restrictions (`none` before the first access), and the number of `InputView`s,
`InputStream`s or slices of them that are alive.  A slice is a view into the full copy, so looking a slice up
in the pool (lines 323-330) gives what creating it again would give; slices are therefore not stored. -/
structure StreamPool where
  /-- the chunk with `from == 0 && to == npos` -/
  parent : Option (Restr × Mem)
  /-- handles alive; `parent.unique()` (line 199) holds iff there are none -/
  handles : Nat

/-- io/InputAlloc.hpp:239-247 and 250-258: `for (; i < v.size(); i++)`; the result is the index found (if
any), the final `i` and the final `unescaped_i`. -/
def scanEscaped (e : UInt8) (target : Nat) : List UInt8 → Nat → Nat → Option Nat × Nat × Nat
  | [], i, u => (none, i, u)
  | b :: v, i, u =>
    if u = target then (some i, i, u)
    else scanEscaped e target v (i + 1) (if b ≠ e then u + 1 else u)

/-- io/InputAlloc.hpp:222-277: the slice of the full copy `v`; `escaped_from`, `escaped_to` are 0 if the loop
does not find them; the `CHECK` of line 265 aborts. -/
def streamSlice (r : Restr) (v : List UInt8) (frm : Nat) (upto : Option Nat) : Res (List UInt8) :=
  let bounds : Res (Nat × Option Nat) :=
    if r.hasNoEscape then .ok (frm, upto)
    else
      match EscMap.make r with
      | .error e => .error e
      | .ok em =>
        let e := em.escapeByte
        let (f, i, u) := scanEscaped e frm v 0 0
        match upto with
        | none => .ok (f.getD 0, none)
        | some x =>
          let (g, _, _) := scanEscaped e x (v.drop i) i u
          .ok (f.getD 0, some (g.getD 0))
  match bounds with
  | .error e => .error e
  | .ok (f, g) =>
    if r.nt && g.isSome then .error .throw
    else sliceV v f g

/-- io/InputAlloc.hpp:158-278, 304-340 `find_or_construct` for a stream source delivering `bytes`: the view
handed out and the new pool. -/
def openStream (ps : Nat) (bytes : List UInt8) (p : StreamPool) (r : Restr) (frm : Nat) (upto : Option Nat) :
    Res (List UInt8 × StreamPool) :=
  let parent : Res (Restr × Mem) :=
    match p.parent with
    | none =>
      match initStream ps r bytes with
      | .error e => .error e
      | .ok m => .ok (r, m)
    | some (old, m) =>
      if old.eqv r then .ok (old, m)
      else if p.handles ≠ 0 then .error .throw
      else
        match changeRestrictions ps old r m with
        | .error e => .error e
        | .ok m => .ok (r, m)
  match parent with
  | .error e => .error e
  | .ok (r', m) =>
    let pool : StreamPool := ⟨some (r', m), p.handles + 1⟩
    if frm = 0 ∧ upto = none then .ok (m.view, pool)
    else
      match streamSlice r m.view frm upto with
      | .error e => .error e
      | .ok v => .ok (v, pool)

/-- io/InputAlloc.hpp:368-381 `unregister_alloc_chunk_handle` when a view or stream is destroyed: the full copy
is kept. -/
def closeStream (p : StreamPool) : StreamPool := { p with handles := p.handles - 1 }

/-! ## as_view and as_stream -/

/-- io/InputView.hpp:46-50 `as_view` for memory and file sources, with no stream pool involved
(a cached buffer with the same source, range and restrictions has the same content). -/
def Inp.asView (ps : Nat) (i : Inp) : Res (List UInt8) :=
  match i.src with
  | .view b => initView ps i.restr b i.frm i.upto
  | .file b => initFile ps i.restr b i.frm i.upto
  | .stream b =>
    match openStream ps b ⟨none, 0⟩ i.restr i.frm i.upto with
    | .error e => .error e
    | .ok (v, _) => .ok v

/-- io/InputStream.hpp:146-188 `as_stream` and all bytes read from it.  For a file the end of the slice is
ignored (the `DCHECK` of line 151 is gone in release builds); seeking behind the end of a file delivers
nothing. -/
def Inp.asStream (ps : Nat) (i : Inp) : Res (List UInt8) :=
  match i.src with
  | .file b => readRestricted i.restr (b.drop i.frm)
  | .view b =>
    match sliceV b i.frm i.upto with
    | .error e => .error e
    | .ok s => readRestricted i.restr s
  | .stream b =>
    match openStream ps b ⟨none, 0⟩ i.restr i.frm i.upto with
    | .error e => .error e
    | .ok (v, _) => .ok v

/-- io/InputSize.hpp:4-54 `size` -/
def Inp.size (ps : Nat) (i : Inp) : Res Nat :=
  match i.src with
  | .stream b =>
    match openStream ps b ⟨none, 0⟩ i.restr i.frm i.upto with
    | .error e => .error e
    | .ok (v, _) => .ok v.length
  | s =>
    if i.restr.hasNone then .ok (i.upto.getD s.bytes.length - i.frm)
    else
      match i.asStream ps with
      | .error e => .error e
      | .ok v => .ok v.length

end Tdc
