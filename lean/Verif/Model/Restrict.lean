import Verif.Model.Basic

/-!
# Model of input restrictions: `InputRestrictions`, escape maps, `RestrictedBuffer`, restricted streams

Memory obtained with `mmap` is modelled with its page granularity (`Mem`): an access beyond the mapped
pages is `Fault.ub`, bytes of a fresh page are 0, and `mremap` keeps the bytes of the pages kept.
-/

namespace Tdc

/-! ## InputRestrictions -/

/-- io/InputRestrictions.hpp:11-13 the two members of `InputRestrictions` -/
structure Restr where
  /-- `m_escape_bytes` -/
  esc : List UInt8
  /-- `m_null_terminate` -/
  nt : Bool
deriving DecidableEq, Repr

/-- `std::unique` + `erase` (io/InputRestrictions.hpp:16): drop every element equal to its predecessor. -/
def uniq : List UInt8 → List UInt8
  | [] => []
  | [a] => [a]
  | a :: b :: l => if a = b then uniq (b :: l) else a :: uniq (b :: l)

/-- io/InputRestrictions.hpp:14-17 `sort_and_dedup`; `std::sort` is any sorting function (here merge sort). -/
def sortDedup (l : List UInt8) : List UInt8 := uniq (l.mergeSort fun a b => decide (a ≤ b))

/-- io/InputRestrictions.hpp:23-28 the constructor -/
def Restr.make (escapeBytes : List UInt8) (nullTerminate : Bool) : Restr :=
  ⟨sortDedup escapeBytes, nullTerminate⟩

/-- io/InputRestrictions.hpp:64-80 `operator|` (`sort_and_dedup` runs in the constructor and again). -/
def Restr.or (a b : Restr) : Restr :=
  let r := Restr.make (a.esc ++ b.esc) (a.nt || b.nt)
  { r with esc := sortDedup r.esc }

/-- io/InputRestrictions.hpp:38-40 -/
def Restr.hasNoEscape (r : Restr) : Bool := r.esc.isEmpty

/-- io/InputRestrictions.hpp:42-44 -/
def Restr.hasNone (r : Restr) : Bool := r.hasNoEscape && (r.nt == false)

/-- io/InputRestrictions.hpp:88-92 `operator==` -/
def Restr.eqv (a b : Restr) : Bool := (a.esc == b.esc) && (a.nt == b.nt)

/-! ## EscapeMap and the two lookup tables -/

/-- io/EscapeMap.hpp:10-24 `ESCAPE_BYTE_POOL` -/
def escapePool : List UInt8 := [255, 254, 192, 193, 245, 246, 247, 248, 249, 250, 251, 252, 253]

/-- io/EscapeMap.hpp:26-37 -/
structure EscMap where
  /-- `m_replacement_bytes` -/
  repl : List UInt8
  /-- `m_escape_bytes`, with the escape byte itself in front -/
  esc : List UInt8
  /-- `m_null_terminate` -/
  nt : Bool

/-- io/EscapeMap.hpp:47-55 the loop over the pool; `repl` are the bytes pushed so far. -/
def pickRepl (esc : List UInt8) : List UInt8 → List UInt8 → List UInt8
  | [], repl => repl
  | byte :: pool, repl =>
    if !(esc.contains byte) && decide (repl.length < esc.length + 1) then
      pickRepl esc pool (repl ++ [byte])
    else pickRepl esc pool repl

/-- io/EscapeMap.hpp:39-64 the constructor; `.at(0)` (line 58) throws when no replacement byte is left.
The `DCHECK_EQ` of line 63 is not there in release builds. -/
def EscMap.make (r : Restr) : Res EscMap :=
  if r.esc.isEmpty then .ok ⟨[], r.esc, r.nt⟩
  else
    match pickRepl r.esc escapePool [] with
    | [] => .error .throw
    | e :: repl => .ok ⟨e :: repl, e :: r.esc, r.nt⟩

/-- io/EscapeMap.hpp:66-68 -/
def EscMap.hasEscape (em : EscMap) : Bool := !em.esc.isEmpty

/-- io/EscapeMap.hpp:70-77 `escape_byte`; `-1` converted to `uint8_t` if there are no escape bytes. -/
def EscMap.escapeByte (em : EscMap) : UInt8 :=
  if em.hasEscape then em.repl.headD 0 else 255

/-- io/EscapeMap.hpp:94-98 -/
structure FastEsc where
  /-- `m_escape_map` -/
  map : UInt8 → UInt8
  /-- `m_escape_map_flag` -/
  flag : UInt8 → Nat
  /-- `m_escape_byte` -/
  escapeByte : UInt8
  /-- `m_null_terminate` -/
  nt : Bool

/-- io/EscapeMap.hpp:100-105 the default constructor (with the member initialisers of 97-98) -/
def FastEsc.default : FastEsc := ⟨fun b => b, fun _ => 0, 0, false⟩

/-- io/EscapeMap.hpp:110-113 the loop over `em_eb`; `em_rb[i]` beyond the end is undefined. -/
def fastEscLoop : List UInt8 → List UInt8 → FastEsc → Res FastEsc
  | [], _, f => .ok f
  | _ :: _, [], _ => .error .ub
  | e :: eb, r :: rb, f =>
    fastEscLoop eb rb { f with map := fun b => if b = e then r else f.map b
                               flag := fun b => if b = e then 1 else f.flag b }

/-- io/EscapeMap.hpp:107-116 -/
def FastEsc.make (em : EscMap) : Res FastEsc :=
  match fastEscLoop em.esc em.repl FastEsc.default with
  | .error e => .error e
  | .ok f => .ok { f with escapeByte := em.escapeByte, nt := em.nt }

/-- io/EscapeMap.hpp:142-146 -/
structure FastUnesc where
  /-- `m_unescape_map` -/
  map : UInt8 → UInt8
  /-- `m_escape_byte` -/
  escapeByte : UInt8
  /-- `m_null_terminate` -/
  nt : Bool
  /-- `m_has_escape_bytes` -/
  hasEscape : Bool

/-- io/EscapeMap.hpp:157-159 the loop over `em_eb` -/
def fastUnescLoop : List UInt8 → List UInt8 → (UInt8 → UInt8) → Res (UInt8 → UInt8)
  | [], _, m => .ok m
  | _ :: _, [], _ => .error .ub
  | e :: eb, r :: rb, m => fastUnescLoop eb rb (fun b => if b = r then e else m b)

/-- io/EscapeMap.hpp:148-163 -/
def FastUnesc.make (em : EscMap) : Res FastUnesc :=
  match fastUnescLoop em.esc em.repl (fun b => b) with
  | .error e => .error e
  | .ok m => .ok ⟨m, em.escapeByte, em.nt, em.hasEscape⟩

/-- `FastEscapeMap { EscapeMap(r) }` -/
def fastEscOf (r : Restr) : Res FastEsc :=
  match EscMap.make r with
  | .error e => .error e
  | .ok em => FastEsc.make em

/-- `FastUnescapeMap { EscapeMap(r) }` -/
def fastUnescOf (r : Restr) : Res FastUnesc :=
  match EscMap.make r with
  | .error e => .error e
  | .ok em => FastUnesc.make em

/-! ## MMap -/

/-- io/MMapHandle.hpp:53-58: an anonymous private mapping; `bytes` are all bytes of the mapped pages,
`size` is `m_size`. -/
structure Mem where
  /-- contents of the mapped pages -/
  bytes : List UInt8
  /-- `m_size` -/
  size : Nat

/-- Bytes occupied by a mapping of `size` bytes: io/MMapHandle.hpp:35-37 `adj_size`, rounded up to pages of
`ps` bytes by the kernel. -/
def pageRound (ps size : Nat) : Nat := (max 1 size + ps - 1) / ps * ps

/-- io/MMapHandle.hpp:178-202 `MMap(size)`: zeroed pages -/
def Mem.alloc (ps size : Nat) : Mem := ⟨List.replicate (pageRound ps size) 0, size⟩

/-- io/MMapHandle.hpp:205-233 `remap` with `mremap`: pages are dropped at, or zero pages added to, the end. -/
def Mem.remap (ps : Nat) (m : Mem) (newSize : Nat) : Mem :=
  let n := pageRound ps newSize
  ⟨m.bytes.take n ++ List.replicate (n - m.bytes.length) 0, newSize⟩

/-- io/MMapHandle.hpp:235-245 `view()` -/
def Mem.view (m : Mem) : List UInt8 := m.bytes.take m.size

/-- A byte store into mapped memory. -/
def storeB (bytes : List UInt8) (i : Nat) (b : UInt8) : Res (List UInt8) :=
  if i < bytes.length then .ok (bytes.set i b) else .error .ub

/-- io/MMapHandle.hpp:79-175 `MMap(path, mode, size, offset)`.  The direct mapping is disabled (line 125
`if (false && …)`), so both branches end in lines 138-171: allocate `size` bytes and read
`file_size - offset` bytes into them.  Reading beyond the mapped pages is undefined.  `offset > file_size`
makes the length wrap around (`size_t`), undefined too. -/
def Mem.ofFile (ps : Nat) (file : List UInt8) (size offset : Nat) : Res Mem :=
  let m := Mem.alloc ps size
  let content := file.drop offset
  if file.length < offset ∨ m.bytes.length < content.length then .error .ub
  else .ok ⟨content ++ m.bytes.drop content.length, size⟩

/-! ## RestrictedBuffer -/

/-- io/RestrictedBuffer.hpp:43-74 `escape_with_iters`, escaping branch (lines 54-66).  `k` is the distance
from `read_begin` to `read_end`, `we` is `write_end` as an index into `buf`.  `src` is the separate
memory read from, or `none` if reading and writing happen in the same buffer starting at `rb`. -/
def escLoop (f : FastEsc) (src : Option (List UInt8)) (rb : Nat) :
    Nat → Nat → List UInt8 → Res (List UInt8)
  | 0, _, buf => .ok buf
  | k + 1, we, buf =>
    match (match src with | none => buf[rb + k]? | some s => s[rb + k]?) with
    | none => .error .ub
    | some c =>
      if we = 0 then .error .ub
      else
        match storeB buf (we - 1) (f.map c) with
        | .error e => .error e
        | .ok buf =>
          if f.flag c ≠ 0 then
            if we - 1 = 0 then .error .ub
            else
              match storeB buf (we - 2) f.escapeByte with
              | .error e => .error e
              | .ok buf => escLoop f src rb k (we - 2) buf
          else escLoop f src rb k (we - 1) buf

/-- io/RestrictedBuffer.hpp:67-73 the `do_copy` branch -/
def copyLoop (s : List UInt8) (rb : Nat) : Nat → Nat → List UInt8 → Res (List UInt8)
  | 0, _, buf => .ok buf
  | k + 1, we, buf =>
    match s[rb + k]? with
    | none => .error .ub
    | some c =>
      if we = 0 then .error .ub
      else
        match storeB buf (we - 1) c with
        | .error e => .error e
        | .ok buf => copyLoop s rb k (we - 1) buf

/-- io/RestrictedBuffer.hpp:43-74 `escape_with_iters`; `doCopy` is only used with a separate source. -/
def escapeWithIters (r : Restr) (src : Option (List UInt8)) (rb k we : Nat) (buf : List UInt8) :
    Res (List UInt8) :=
  if !r.hasNoEscape then
    match fastEscOf r with
    | .error e => .error e
    | .ok f => escLoop f src rb k we buf
  else
    match src with
    | some s => copyLoop s rb k we buf
    | none => .ok buf

/-- io/RestrictedBuffer.hpp:81-106 `extra_size_needed_due_restrictions` over the given bytes
(callers pass exactly the bytes `[begin, begin + len)`). -/
def extraSize (r : Restr) (s : List UInt8) : Res Nat :=
  if !r.hasNoEscape then
    match fastEscOf r with
    | .error e => .error e
    | .ok f => .ok (s.foldl (fun extra c => extra + f.flag c) 0 + (if r.nt then 1 else 0))
  else .ok (if r.nt then 1 else 0)

/-- pre_header/GenericViewBase.hpp:178-188 `slice(from, to)`; `to = none` is `npos`.  Outside the view the
result is undefined (the `DCHECK`s are gone in release builds). -/
def sliceV (s : List UInt8) (frm : Nat) (to : Option Nat) : Res (List UInt8) :=
  let to := to.getD s.length
  if frm ≤ to ∧ to ≤ s.length then .ok ((s.take to).drop frm) else .error .ub

/-- io/RestrictedBuffer.hpp:108-134 `init`, view source; the result is `view()`. -/
def initView (ps : Nat) (r : Restr) (source : List UInt8) (frm : Nat) (to : Option Nat) :
    Res (List UInt8) :=
  match sliceV source frm to with
  | .error e => .error e
  | .ok s =>
    match extraSize r s with
    | .error e => .error e
    | .ok extra =>
      if extra ≠ 0 then
        let size := s.length + extra
        let m := Mem.alloc ps size
        let noff := if r.nt then 1 else 0
        match escapeWithIters r (some s) 0 s.length (size - noff) m.bytes with
        | .error e => .error e
        | .ok bytes => .ok ((⟨bytes, size⟩ : Mem).view)
      else .ok s

/-- io/MMapHandle.hpp:62-69 `next_valid_offset` -/
def nextValidOffset (ps offset : Nat) : Nat := offset - offset % ps

/-- io/RestrictedBuffer.hpp:135-185 `init`, file source; `file` is the content of the file.
Sizes are `size_t`: `read_file_size - m_from` wraps (undefined behaviour later) if `m_from` is beyond the end. -/
def initFile (ps : Nat) (r : Restr) (file : List UInt8) (frm : Nat) (to : Option Nat) :
    Res (List UInt8) :=
  let to' := to.getD file.length
  if to' < frm ∨ file.length < to' then .error .ub
  else
    let usize := to' - frm
    match extraSize r ((file.drop frm).take usize) with
    | .error e => .error e
    | .ok extra =>
      let aligned := nextValidOffset ps frm
      let pageOff := frm - aligned
      let mapSize := usize + extra + pageOff
      match Mem.ofFile ps file mapSize aligned with
      | .error e => .error e
      | .ok m =>
        if r.hasNone then .ok (m.view.drop pageOff)
        else
          let noff := if r.nt then 1 else 0
          let endData := pageOff + usize + extra - noff
          match escapeWithIters r none pageOff usize endData m.bytes with
          | .error e => .error e
          | .ok bytes =>
            if r.nt then
              match storeB bytes endData 0 with
              | .error e => .error e
              | .ok bytes => .ok ((⟨bytes, m.size⟩ : Mem).view.drop pageOff)
            else .ok ((⟨bytes, m.size⟩ : Mem).view.drop pageOff)

/-- io/RestrictedBuffer.hpp:210-234 fill-and-grow loop; the state is the mapping, the capacity, the number of
bytes read and the extra size. -/
def fillLoop (ps : Nat) (f : FastEsc) : List UInt8 → Mem → Nat → Nat → Nat → Res (Mem × Nat × Nat)
  | input, m, cap, size, extra =>
    let m' := if size < cap then m else m.remap ps (2 * cap)
    let cap' := if size < cap then cap else 2 * cap
    match input with
    | [] => .ok (m', size, extra)
    | c :: rest =>
      match storeB m'.bytes size c with
      | .error e => .error e
      | .ok bytes => fillLoop ps f rest { m' with bytes := bytes } cap' (size + 1) (extra + f.flag c)

/-- io/RestrictedBuffer.hpp:186-250 `init`, stream source; `input` is everything the stream delivers.
The result is the mapping (its `view()` is the restricted data). -/
def initStream (ps : Nat) (r : Restr) (input : List UInt8) : Res Mem :=
  match (if !r.hasNoEscape then fastEscOf r else .ok FastEsc.default) with
  | .error e => .error e
  | .ok f =>
    let noff := if r.nt then 1 else 0
    match fillLoop ps f input (Mem.alloc ps ps) ps 0 noff with
    | .error e => .error e
    | .ok (m, size, extra) =>
      let m := m.remap ps (size + extra)
      match escapeWithIters r none 0 size (size + extra - noff) m.bytes with
      | .error e => .error e
      | .ok bytes => .ok { m with bytes := bytes }

/-- io/RestrictedBuffer.hpp:281-290 loop of `unrestrict`: `rp`/`wp` are `read_p`/`write_p`, `dataEnd` is
`data_end`.  If an escape byte is last, `read_p` steps over `data_end` and the loop runs out of the mapping. -/
def unrestrictLoop (u : FastUnesc) (dataEnd : Nat) : Nat → Nat → Nat → List UInt8 →
    Res (Nat × Nat × List UInt8)
  | 0, _, _, _ => .error .ub
  | fuel + 1, rp, wp, bytes =>
    if rp = dataEnd then .ok (rp, wp, bytes)
    else
      match bytes[rp]? with
      | none => .error .ub
      | some c =>
        if c = u.escapeByte then
          match bytes[rp + 1]? with
          | none => .error .ub
          | some d =>
            match storeB bytes wp (u.map d) with
            | .error e => .error e
            | .ok bytes => unrestrictLoop u dataEnd fuel (rp + 2) (wp + 1) bytes
        else
          match storeB bytes wp c with
          | .error e => .error e
          | .ok bytes => unrestrictLoop u dataEnd fuel (rp + 1) (wp + 1) bytes

/-- io/RestrictedBuffer.hpp:257-300 `unrestrict` (stream buffers only) -/
def unrestrict (ps : Nat) (r : Restr) (m : Mem) : Res Mem :=
  if r.hasNone then .ok m
  else
    match fastUnescOf r with
    | .error e => .error e
    | .ok u =>
      let noff := if r.nt then 1 else 0
      let dataEnd := m.size - noff
      match unrestrictLoop u dataEnd (m.bytes.length + 1) 0 0 m.bytes with
      | .error e => .error e
      | .ok (rp, wp, bytes) =>
        let reduced := (rp - wp) + noff
        .ok ((⟨bytes, m.size⟩ : Mem).remap ps (m.size - reduced))

/-- io/RestrictedBuffer.hpp:303-352 `restrict`; `old` are the restrictions of `other`, which the caller has
just unrestricted. -/
def restrictMem (ps : Nat) (old r : Restr) (m : Mem) : Res Mem :=
  if old.eqv r then .ok m
  else
    match extraSize r m.view with
    | .error e => .error e
    | .ok extra =>
      if extra = 0 then .ok m
      else
        let oldSize := m.view.length
        let m := m.remap ps (oldSize + extra)
        let noff := if r.nt then 1 else 0
        let newEnd := oldSize + extra - noff
        match escapeWithIters r none 0 oldSize newEnd m.bytes with
        | .error e => .error e
        | .ok bytes =>
          if r.nt then
            match storeB bytes newEnd 0 with
            | .error e => .error e
            | .ok bytes => .ok { m with bytes := bytes }
          else .ok { m with bytes := bytes }

/-- io/RestrictedBuffer.hpp:357-364 `change_restrictions` -/
def changeRestrictions (ps : Nat) (old new : Restr) (m : Mem) : Res Mem :=
  match unrestrict ps old m with
  | .error e => .error e
  | .ok m => restrictMem ps (if old.hasNone then old else ⟨[], false⟩) new m

/-! ## Restricted streams -/

/-- io/RestrictedIOStream.hpp:94-100 members of `RestrictedIStreamBuf`; `none` is `eof`. -/
structure PullState where
  /-- what the underlying stream still delivers -/
  rest : List UInt8
  /-- `m_char_buf` -/
  buf : Option UInt8
  /-- `m_nt_done` -/
  ntDone : Bool

/-- io/RestrictedIOStream.hpp:102-125 `pull_escape` -/
def pullEscape (f : FastEsc) (s : PullState) : Option UInt8 × PullState :=
  match s.buf with
  | some b => (some b, { s with buf := none })
  | none =>
    match s.rest with
    | byte :: rest =>
      if f.flag byte ≠ 0 then (some f.escapeByte, { s with rest := rest, buf := some (f.map byte) })
      else (some byte, { s with rest := rest })
    | [] =>
      if f.nt && !s.ntDone then (some 0, { s with ntDone := true })
      else (none, s)

/-- io/RestrictedIOStream.hpp:128-150: the constructor pulls the first byte into `m_current`; each `uflow`
returns `m_current` and pulls the next one.  Reading stops at `eof`.  All bytes a reader gets, given enough
`fuel`. -/
def pullAll (f : FastEsc) : Nat → Option UInt8 → PullState → Res (List UInt8)
  | _, none, _ => .ok []
  | 0, some _, _ => .error .loop
  | fuel + 1, some c, s =>
    let (next, s) := pullEscape f s
    match pullAll f fuel next s with
    | .error e => .error e
    | .ok out => .ok (c :: out)

/-- The bytes read from an `InputStream` with restrictions over the given underlying bytes
(io/InputStream.hpp:84-110 wraps the stream only if there are restrictions). -/
def readRestricted (r : Restr) (input : List UInt8) : Res (List UInt8) :=
  if r.hasNone then .ok input
  else
    match fastEscOf r with
    | .error e => .error e
    | .ok f =>
      let (cur, s) := pullEscape f ⟨input, none, false⟩
      pullAll f (2 * input.length + 2) cur s

/-- io/RestrictedIOStream.hpp:14-19 members of `RestrictedOStreamBuf`; `out` is what reached the underlying
stream. -/
structure PushState where
  /-- bytes `put` so far -/
  out : List UInt8
  /-- `m_saw_escape` -/
  sawEscape : Bool
  /-- `m_saw_null` -/
  sawNull : Bool

/-- io/RestrictedIOStream.hpp:32-61 `push_unescape` -/
def pushUnescape (u : FastUnesc) (s : PushState) (c : UInt8) : PushState :=
  if s.sawEscape then
    let out := if s.sawNull then s.out ++ [0] else s.out
    ⟨out ++ [u.map c], false, false⟩
  else if u.hasEscape && c == u.escapeByte then { s with sawEscape := true }
  else if c == 0 && u.nt then
    let out := if s.sawNull then s.out ++ [0] else s.out
    ⟨out, false, true⟩
  else
    let out := if s.sawNull then s.out ++ [0] else s.out
    ⟨out ++ [c], false, false⟩

/-- The bytes that reach the underlying stream when the chunks are written to an `OutputStream` with
restrictions (io/OutputStream.hpp:97-130 wraps the stream only if there are restrictions). -/
def writeUnrestricted (r : Restr) (chunks : List (List UInt8)) : Res (List UInt8) :=
  if r.hasNone then .ok chunks.flatten
  else
    match fastUnescOf r with
    | .error e => .error e
    | .ok u =>
      .ok (chunks.foldl (fun s chunk => chunk.foldl (pushUnescape u) s) (⟨[], false, false⟩ : PushState)).out

end Tdc
