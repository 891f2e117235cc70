import Verif.Model.LZSSCoding
import Verif.Model.TextDS

/-!
# compressors/lcpcomp/decompress: the four decode buffers of `lcpcomp`

`lcpcomp` factors may refer to positions to their right, which are not decoded yet when the factor is read. The buffers let the
targets wait for their sources.

Sources: ScanDec.hpp, CompactDec.hpp, DecodeQueueListBuffer.hpp, MultiMapBuffer.hpp, LCPCompressor.hpp:23-73.
The statistics (`longest_chain`, …) are not modelled. Memory is not modelled beyond bounds and uninitialised entries: EagerScanDec
calls `realloc`/`delete[]` on memory from `new[]`/`realloc`, which the model treats as matching. The recursion depth is unbounded in
the model.
-/

namespace Tdc
namespace LC

/-- What distinguishes the eager parts of the four buffers. -/
structure Cfg where
  /-- "not decoded" is coded as a zero in the buffer (`ScanDec`, `CompactDec`) rather than in the bit vector `m_decoded` -/
  zero : Bool
  /-- index of the waiting list of a text position in `m_fwd`; `none`: the position has no list (`m_bv[pos] == 0`) -/
  ix : Nat → Option Nat
  /-- append to a waiting list; the hash multimap does not specify where -/
  ins : List Nat → Nat → List Nat

/-- The buffer: `m_buffer`, `m_decoded` (ghost for the two buffers that do not have it: never read then), `m_fwd` (`none` is an
uninitialised entry), `m_cursor`. -/
structure FB where
  buf : List UInt8
  dec : List Bool
  fwd : List (Option (List Nat))
  cursor : Nat

/-- `m_buffer[i]` (CompactDec.hpp:97, ScanDec.hpp:71) resp. `m_decoded[i]` (DecodeQueueListBuffer.hpp:68, MultiMapBuffer.hpp:131) as condition -/
def FB.isDec (g : Cfg) (st : FB) (i : Nat) : Res Bool :=
  if g.zero then
    match vget st.buf i with
    | .error e => .error e
    | .ok c => .ok (decide (c ≠ 0))
  else vget st.dec i

/-- `m_buffer[pos] = c; m_decoded[pos] = 1` -/
def FB.mark (st : FB) (pos : Nat) (c : UInt8) : Res FB :=
  match vset st.buf pos c with
  | .error e => .error e
  | .ok b => .ok { st with buf := b, dec := st.dec.set pos true }

/-- the waiting list with index `r` -/
def FB.bucket (st : FB) (r : Nat) : Res (List Nat) :=
  match vget st.fwd r with
  | .error e => .error e
  | .ok none => .error .ub
  | .ok (some l) => .ok l

/-- `decode_literal_at` (CompactDec.hpp:39-56, ScanDec.hpp:100-122, DecodeQueueListBuffer.hpp:35-50, MultiMapBuffer.hpp:36-63).
The waiting list is read once. The code reads it during the loop; that makes a difference only if the recursion changes the list
of `pos`, which in the code means to read freed memory (or, for the multimap, an erased iterator): undefined. The multimap erases the
elements one by one instead of all of them after the loop. -/
def decAt (g : Cfg) : Nat → FB → Nat → UInt8 → Res FB
  | 0, _, _, _ => .error .loop
  | fuel + 1, st, pos, c =>
    match st.mark pos c with
    | .error e => .error e
    | .ok st =>
      match g.ix pos with
      | none => .ok st
      | some r =>
        match st.bucket r with
        | .error e => .error e
        | .ok l =>
          match l.foldlM (fun st q => decAt g fuel st q c) st with
          | .error e => .error e
          | .ok st =>
            if st.fwd[r]? = some (some l) then .ok { st with fwd := st.fwd.set r (some []) } else .error .ub

/-- the recursion of an acyclic factorization is at most as deep as the buffer is long -/
def FB.decAt (g : Cfg) (st : FB) (pos : Nat) (c : UInt8) : Res FB := LC.decAt g (st.buf.length + 1) st pos c

/-- `m_fwd[src].push_back(target)` (CompactDec.hpp:100-112, ScanDec.hpp:75-86, DecodeQueueListBuffer.hpp:71, MultiMapBuffer.hpp:134) -/
def FB.push (g : Cfg) (st : FB) (src target : Nat) : Res FB :=
  match g.ix src with
  | none => .error .ub
  | some r =>
    match st.bucket r with
    | .error e => .error e
    | .ok l => .ok { st with fwd := st.fwd.set r (some (g.ins l target)) }

/-- one character of a factor (CompactDec.hpp:96-113, ScanDec.hpp:71-87, DecodeQueueListBuffer.hpp:67-72, MultiMapBuffer.hpp:131-135) -/
def FB.copy1 (g : Cfg) (st : FB) (src target : Nat) : Res FB :=
  match st.isDec g src with
  | .error e => .error e
  | .ok true =>
    match vget st.buf src with
    | .error e => .error e
    | .ok c => st.decAt g target c
  | .ok false => st.push g src target

/-- the loop over the characters of a factor -/
def FB.copyN (g : Cfg) : FB → Nat → Nat → Nat → Res FB
  | st, _, _, 0 => .ok st
  | st, src, target, n + 1 =>
    match st.copy1 g src target with
    | .error e => .error e
    | .ok st => st.copyN g (src + 1) (target + 1) n

/-- `decode_literal`, `decode_factor` of CompactDec.hpp:90-117 and DecodeQueueListBuffer.hpp:61-76 -/
def FB.op (g : Cfg) (st : FB) : DecOp → Res FB
  | .lit c =>
    match st.decAt g st.cursor c with
    | .error e => .error e
    | .ok st => .ok { st with cursor := st.cursor + 1 }
  | .fac src len =>
    match st.copyN g src st.cursor len with
    | .error e => .error e
    | .ok st => .ok { st with cursor := st.cursor + len }

/-- CompactDec.hpp:80-88, DecodeQueueListBuffer.hpp:53-59 -/
def FB.init (n : Nat) : FB := ⟨List.replicate n 0, List.replicate n false, List.replicate n (some []), 0⟩

/-- one waiting list per text position, appended to at the end -/
def cfgDirect (zero : Bool) : Cfg := ⟨zero, some, fun l q => l ++ [q]⟩

/-- all calls on a `CompactDec` (`zero`) or a `DecodeForwardQueueListBuffer`, `decode_lazy` and `decode_eagerly` do nothing
(CompactDec.hpp:25-28, 124-126; DecodeQueueListBuffer.hpp:18-21, 82-84) -/
def runDirect (zero : Bool) (n : Nat) (ops : List DecOp) : Res (List UInt8) :=
  match ops.foldlM (FB.op (cfgDirect zero)) (FB.init n) with
  | .error e => .error e
  | .ok st => .ok st.buf

/-! ### The buffers that first copy what they can and collect the rest -/

/-- ScanDec.hpp:189-198, MultiMapBuffer.hpp:21-32: buffer, `m_decoded` (ghost for `ScanDec`), cursor, `(target, source, length)` of the stored factors -/
structure SB where
  buf : List UInt8
  dec : List Bool
  cursor : Nat
  stored : List (Nat × Nat × Nat)

/-- as in `FB.isDec` (ScanDec.hpp:226, MultiMapBuffer.hpp:97) -/
def SB.isDec (zero : Bool) (st : SB) (i : Nat) : Res Bool :=
  if zero then
    match vget st.buf i with
    | .error e => .error e
    | .ok c => .ok (decide (c ≠ 0))
  else vget st.dec i

/-- `m_buffer[to] = m_buffer[from]; m_decoded[to] = 1` -/
def SB.move (st : SB) (src target : Nat) : Res SB :=
  match vget st.buf src with
  | .error e => .error e
  | .ok c =>
    match vset st.buf target c with
    | .error e => .error e
    | .ok b => .ok { st with buf := b, dec := st.dec.set target true }

/-- `decode_literal`: ScanDec.hpp:217-220; MultiMapBuffer.hpp:89-91, where `m_fwd` is still empty, so that `decode_literal_at` does
nothing more -/
def SB.lit (st : SB) (c : UInt8) : Res SB :=
  match vset st.buf st.cursor c with
  | .error e => .error e
  | .ok b => .ok { st with buf := b, dec := st.dec.set st.cursor true, cursor := st.cursor + 1 }

/-- the loop of `decode_factor`, `n` characters to go, `flag` is `factor_stored` (ScanDec.hpp:222-237, MultiMapBuffer.hpp:93-109) -/
def SB.facLoop (zero : Bool) : Bool → SB → Nat → Nat → Res SB
  | _, st, _, 0 => .ok st
  | flag, st, src, n + 1 =>
    match st.isDec zero src with
    | .error e => .error e
    | .ok true =>
      match st.move src st.cursor with
      | .error e => .error e
      | .ok st => SB.facLoop zero flag { st with cursor := st.cursor + 1 } (src + 1) n
    | .ok false =>
      if flag then SB.facLoop zero flag { st with cursor := st.cursor + 1 } (src + 1) n
      else SB.facLoop zero true { st with cursor := st.cursor + 1, stored := st.stored ++ [(st.cursor, src, n + 1)] } (src + 1) n

/-- the calls -/
def SB.op (zero : Bool) (st : SB) : DecOp → Res SB
  | .lit c => st.lit c
  | .fac src len => SB.facLoop zero false st src len

/-- one character in `decode_lazy_` (ScanDec.hpp:185: unconditionally; MultiMapBuffer.hpp:72-75) -/
def SB.lazy1 (zero : Bool) (st : SB) (src target : Nat) : Res SB :=
  if zero then
    match vget st.buf src with
    | .error e => .error e
    | .ok c =>
      match vset st.buf target c with
      | .error e => .error e
      | .ok b => .ok { st with buf := b, dec := st.dec.set target (decide (c ≠ 0)) }
  else
    match vget st.dec src with
    | .error e => .error e
    | .ok true => st.move src target
    | .ok false => .ok st

/-- one stored factor in `decode_lazy_` -/
def SB.lazyN (zero : Bool) : SB → Nat → Nat → Nat → Res SB
  | st, _, _, 0 => .ok st
  | st, target, src, n + 1 =>
    match st.lazy1 zero src target with
    | .error e => .error e
    | .ok st => st.lazyN zero (target + 1) (src + 1) n

/-- `decode_lazy_` (ScanDec.hpp:177-188, MultiMapBuffer.hpp:65-78) -/
def SB.lazyRound (zero : Bool) (st : SB) : Res SB := st.stored.foldlM (fun st f => st.lazyN zero f.1 f.2.1 f.2.2) st

/-- `decode_lazy` (ScanDec.hpp:154-162, MultiMapBuffer.hpp:111-117) -/
def SB.lazy (zero : Bool) : Nat → SB → Res SB
  | 0, st => .ok st
  | k + 1, st =>
    match st.lazyRound zero with
    | .error e => .error e
    | .ok st => st.lazy zero k

/-- `m_bv[i]` (ScanDec.hpp:40-47) -/
def isZeroAt (buf : List UInt8) (i : Nat) : Bool := buf[i]? == some 0

/-- `m_rank.rank(i+1)` (ScanDec.hpp:56-59; sdsl): number of ones in the first `i + 1` bits -/
def zeroRank (buf : List UInt8) (i : Nat) : Nat := (buf.take (i + 1)).count 0

/-- `EagerScanDec`: lists for the zeros, indexed by rank (ScanDec.hpp:36-59) -/
def cfgScan (buf : List UInt8) : Cfg := ⟨true, fun i => if isZeroAt buf i then some (zeroRank buf i) else none, fun l q => l ++ [q]⟩

/-- ScanDec.hpp:51-53: `m_empty_entries + 1` lists, the last one is not initialised -/
def scanFwd (buf : List UInt8) : List (Option (List Nat)) := List.replicate (buf.count 0) (some []) ++ [none]

/-- the multimap: a list for each position, the place of a new element is unspecified -/
def cfgMulti (ins : List Nat → Nat → List Nat) : Cfg := ⟨false, some, ins⟩

/-- `EagerScanDec::decode` (ScanDec.hpp:61-99), `MultimapBuffer::decode_eagerly` (MultiMapBuffer.hpp:119-137) -/
def eager (g : Cfg) (st : FB) (stored : List (Nat × Nat × Nat)) : Res FB :=
  stored.foldlM (fun st f => st.copyN g f.2.1 f.1 f.2.2) st

/-- all calls on a `ScanDec` with option `scans` (LCPCompressor.hpp:68-73) -/
def runScan (scans n : Nat) (ops : List DecOp) : Res (List UInt8) :=
  match ops.foldlM (SB.op true) ⟨List.replicate n 0, List.replicate n false, 0, []⟩ with
  | .error e => .error e
  | .ok st =>
    match st.lazy true scans with
    | .error e => .error e
    | .ok st =>
      match eager (cfgScan st.buf) ⟨st.buf, st.dec, scanFwd st.buf, 0⟩ st.stored with
      | .error e => .error e
      | .ok st => .ok st.buf

/-- all calls on a `MultimapBuffer` with option `lazy` -/
def runMulti (ins : List Nat → Nat → List Nat) (lazy n : Nat) (ops : List DecOp) : Res (List UInt8) :=
  match ops.foldlM (SB.op false) ⟨List.replicate n 0, List.replicate n false, 0, []⟩ with
  | .error e => .error e
  | .ok st =>
    match st.lazy false lazy with
    | .error e => .error e
    | .ok st =>
      match eager (cfgMulti ins) ⟨st.buf, st.dec, List.replicate n (some []), 0⟩ st.stored with
      | .error e => .error e
      | .ok st => .ok st.buf

/-- the registered decoders (etc/registry_config.py:159-164) -/
inductive DecName where
  | scan (scans : Nat)
  | compact
  | queueList
  | multimap (lazy : Nat) (ins : List Nat → Nat → List Nat)

/-- run the calls `decode_literal`/`decode_factor`, then `decode_lazy`, `decode_eagerly`, `write_to` (LCPCompressor.hpp:31-72) -/
def DecName.run (d : DecName) (n : Nat) (ops : List DecOp) : Res (List UInt8) :=
  match d with
  | .scan k => runScan k n ops
  | .compact => runDirect true n ops
  | .queueList => runDirect false n ops
  | .multimap k ins => runMulti ins k n ops

/-- `lcpcomp::decode_text_internal` (LCPCompressor.hpp:23-73): the same format as LZSSCoding.hpp:94-133 -/
def lcpDecodeBits (c : UCoder) (d : DecName) (bits : List Bool) : Res (List UInt8) :=
  match lzssDecode c bits with
  | .error e => .error e
  | .ok (n, ops) => d.run n ops

end LC
end Tdc
