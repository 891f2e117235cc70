import Verif.Model.Judy
import Verif.Model.Chain
import Verif.Model.Simple
import Verif.Model.BWT
import Verif.Model.LZ78
import Verif.Model.LZW
import Verif.Model.LZSSWindow
import Verif.Model.LZSSLCP
import Verif.Model.LcpComp
import Verif.Model.RePair
import Verif.Model.EspSorted
import Verif.Model.EspHuffman
import Verif.Props.Chain
import Verif.Props.Trie
import Verif.Props.Huffman
import Verif.Props.LcpComp
import Verif.Props.LFSReal
import Verif.Props.EspMono
import Verif.Props.EspHuffman
import Verif.Props.LZ78U
import Verif.Props.HashTries
import Verif.Props.KarpRabin
import Verif.Props.EspIPD
import Verif.Props.TextDSObj
import Verif.Model.LiteralEntropy
import Verif.Model.Arithmetic
import Verif.Model.CompactHash
import Verif.Model.EspFitWT

/-!
# The registered compressors as the driver runs them

etc/registry_config.py:227-245 lists the compressors that are registered. Each of them is given here with
the restrictions its `meta()` announces, the way its `compress` and `decompress` read their `Input`, and the computation on the bytes
read, which is the model of that compressor in this project. Not included: `lz78` and `lzw` with the tries `cedar` and `judy`. The `sdsl` suffix trees of `lfs2` and of the
strategy `sim_st` are taken from the surroundings.
-/

namespace Tdc

/-- What the compressors take from their surroundings: the page size, the suffix arrays divsufsort computes, the algorithms on heaps of
the standard library, the order in which `std::unordered_map` lists its entries, the hash function of `esp`, the order in which the maps of a suffix tree are traversed, and the
suffix trees of `sdsl`. -/
structure Sys where
  ps : Nat
  saOf : List UInt8 → List Nat
  std : StdLib
  iter : List ((Nat × Nat) × Nat) → List ((Nat × Nat) × Nat)
  espHash : Nat → Esp.Key → Nat
  kids : List UInt8 → Nat → List UInt8
  sdslTree : List UInt8 → Lfs.Tree

/-- compressors/esp/DRCoder.hpp with etc/registry_config.py:181-198: the coders of the inner level (`slp_d_coder_2`) -/
inductive InnerD where
  | plain | huffman | wavelet

/-- the coder of the inner level -/
def InnerD.coder (std : StdLib) : InnerD → Esp.DCoder
  | .plain => Esp.DPlain
  | .huffman => Esp.DHuffman std
  | .wavelet => Esp.DWaveletTree

/-- the SLP coders (etc/registry_config.py:181-203) -/
inductive EspCoder where
  | plainSlp
  | sorted (huffman : Bool)
  | diff
  | mono (optimal : Bool) (d : InnerD)
  | rangeFit (wt : Bool) (o : Esp.FitOpts)

/-- compressors/esp/SortedSLPCoder.hpp with its coder of right-hand sides -/
def EspCoder.dcoder (std : StdLib) : EspCoder → Option Esp.DCoder
  | .plainSlp => none
  | .sorted false => some Esp.DPlain
  | .sorted true => some (Esp.DHuffman std)
  | .diff => some Esp.DDiff
  | .mono false d => some (Esp.DMonotonSubseq Esp.subseqGreedy (d.coder std))
  | .mono true d => some (Esp.DMonotonSubseq Esp.subseqOptimal (d.coder std))
  | .rangeFit false o => some (Esp.DRangeFit o)
  | .rangeFit true o => some (Esp.DRangeFitWT o)

/-- the coders of literals of `lfs_comp` and `lfs2bst` (etc/registry_config.py:214-218 `lit_coder`) -/
inductive LitName where
  | plain (c : CoderName)
  | huffman

/-- the model of the coder -/
def LitName.lit : LitName → Lfs.LitCoder
  | .plain c => .plain c.coder
  | .huffman => .huffman

/-- the coders of `lcpcomp` and `lzss_lcp` -/
inductive RefCoder where
  | plain (c : CoderName)
  | huffman
  | sle (k : Nat)

/-- the coders of `encode` (etc/registry_config.py:37 `all_coders`) -/
inductive LitEnc where
  | plain (c : CoderName)
  | huffman
  | arithmetic
  | sle (k : Nat)

/-- the hash tables of the tries: one or two of them, with the depth of the call stack and the load factor in percent (Model/HashTries.lean) -/
inductive HashTab (κ : Type) where
  | one (A : HT.Conf κ) (depth lf : Nat)
  | two (A1 A2 : HT.Conf κ) (depth lf : Nat)

/-- the table at the beginning, for a text of `n` bytes and `res` cells to reserve -/
def HashTab.tab {κ : Type} [DecidableEq κ] (n res : Nat) : HashTab κ → HT.IdTab κ
  | .one A depth lf => HT.single A depth lf n res
  | .two A1 A2 depth lf => HT.plus A1 A2 depth lf n res

/-- the tries of `lz78` and `lzw` (etc/registry_config.py:109-120): the three with pointers, `ExtHashTrie`, `HashTrie` and `HashTriePlus`, `RollingTrie` and `RollingTriePlus` with one of the
hash functions, `CompactSparseHashTrie` and `JudyTrie`. (`CedarTrie` is missing.) -/
inductive TrieName where
  | ptr (t : PtrTrie)
  | ext
  | hash (T : HashTab (Nat × UInt8))
  | wordpack (T : HashTab Nat)
  | karpRabin (key : UInt8 → Nat) (T : HashTab Nat)
  | compact
  | judy

/-- the trie for a text of `n` bytes, with `res` cells reserved (LZ78Compressor.hpp:75, LZWCompressor.hpp:58); `strict` is used in the conditions only -/
def TrieName.impl (strict : Bool) (n res : Nat) : TrieName → TrieImpl
  | .ptr t => t.impl
  | .ext => hashTrie true
  | .hash T => HT.hashTrieOn (T.tab n res)
  | .wordpack T => HT.rollingTrieOn Rolling.wordpack (HashTab.tab (κ := Nat) n res T)
  | .karpRabin key T => HT.rollingTrieOn (Rolling.rk key) (HashTab.tab (κ := Nat) n res T)
  | .compact => CSH.cshTrie strict res
  | .judy => judyTrie

/-- Algorithms that can be named on the command line, with their options. -/
inductive Algo where
  | noop (streamMode debug : Bool)
  | rle (offset : Nat)
  | mtf
  | literal (c : LitEnc)
  | lz78 (t : TrieName) (c : CoderName)
  | lzw (t : TrieName) (c : CoderName)
  | lzss (c : CoderName) (window threshold : Nat)
  | lzssLcp (c : RefCoder) (pk : Packs) (threshold : Nat)
  | lzssTextDS (c : CoderName) (lk : TObj.LcpKind) (ik : TObj.IsaKind) (mode : TObj.Mode) (threshold : Nat)
  | lcpcomp (c : RefCoder) (s : LC.Strategy) (d : LC.DecName) (flat : Bool) (pk : Packs) (threshold : Nat)
  | lz78u (c1 c2 : CoderName) (threshold : Nat)
  | lz78uHuffman (c1 : CoderName) (threshold : Nat)
  | repair (c : CoderName) (maxRules : Nat)
  | repairHuffman (maxRules : Nat)
  | bwt
  | esp (c : EspCoder) (map : Esp.IpdName)
  | lfsEsa (lit : LitName) (len : CoderName) (diff : Nat → Nat → Nat) (pk : Packs)
  | lfsBst (lit : LitName) (len : CoderName) (minLrf : Nat)
  | lfsSt (lit : LitName) (len : CoderName) (minLrf : Nat)
  | lfsSimSt (lit : LitName) (len : CoderName) (minLrf : Nat)
  | lfs2 (exact : Bool) (lit : LitName) (len : CoderName) (minLrf : Nat)
  | lfs2bst (lit : LitName) (len : CoderName) (minLrf : Nat)
  | chain (a b : Algo)

/-- the decompressors write their result as one string (or character by character, which is the same to the output, see `output_exact`) -/
def oneChunk (r : Res (List UInt8)) : Res (List (List UInt8)) := r.map fun t => [t]

/-- compressors/LZSSLCPCompressor.hpp:40-131 on the bytes of the view -/
def RefCoder.lzssComp (c : RefCoder) (E : Sys) (pk : Packs) (th : Nat) (v : List UInt8) : Res (List UInt8) :=
  match c with
  | .plain c => lzssLcpCompress c.coder pk th v (E.saOf v)
  | .huffman => (textDS pk v (E.saOf v)).bind fun A => (lcpFactors A v.length th).bind fun fs => lzssHuffEncode E.std v fs
  | .sle k => (textDS pk v (E.saOf v)).bind fun A => (lcpFactors A v.length th).bind fun fs => lzssSleEncode k v fs

/-- compressors/LZSSLCPCompressor.hpp:126-131 `decompress` -/
def RefCoder.lzssDecomp (c : RefCoder) (z : List UInt8) : Res (List UInt8) :=
  match c with
  | .plain c => lzssLcpDecompress c.coder z
  | .huffman => lzssHuffDecode z
  | .sle k => lzssSleDecode k z

/-- compressors/LCPCompressor.hpp:98-138 on the bytes of the view -/
def RefCoder.lcpComp (c : RefCoder) (E : Sys) (s : LC.Strategy) (flat : Bool) (pk : Packs) (th : Nat) (v : List UInt8) : Res (List UInt8) :=
  match c with
  | .plain c => LC.lcpCompress c.coder s flat pk th v (E.saOf v)
  | .huffman => (LC.lcpFactorsOf s flat pk th v (E.saOf v)).bind fun fs => lzssHuffEncode E.std v fs
  | .sle k => (LC.lcpFactorsOf s flat pk th v (E.saOf v)).bind fun fs => lzssSleEncode k v fs

/-- compressors/LCPCompressor.hpp:140-150 `decompress` -/
def RefCoder.lcpDecomp (c : RefCoder) (d : LC.DecName) (z : List UInt8) : Res (List UInt8) :=
  match c with
  | .plain c => LC.lcpDecompress c.coder d z
  | .huffman => LC.lcpHuffDecompress d z
  | .sle k => LC.lcpSleDecompress k d z

/-- compressors/EspCompressor.hpp:40-88 on the bytes of the view, with the map of the rules -/
def EspCoder.comp (c : EspCoder) (map : Esp.IpdName) (E : Sys) (v : List UInt8) : Res (List UInt8) :=
  match c.dcoder E.std with
  | none => Esp.compressOn (map.ipd E.iter E.espHash) v
  | some d => (Esp.generateOn (map.ipd E.iter E.espHash) v).bind fun s => (Esp.sortedEnc d s).bind fun b => .ok (BitO.toBytes b)

/-- compressors/EspCompressor.hpp:76-88 `decompress` -/
def EspCoder.decomp (c : EspCoder) (E : Sys) (z : List UInt8) : Res (List UInt8) :=
  match c.dcoder E.std with
  | none => Esp.decompress z
  | some d => Esp.decompressSorted d z

/-- compressors/LiteralEncoder.hpp:20-32 on the bytes of the view -/
def LitEnc.comp (c : LitEnc) (E : Sys) (v : List UInt8) : Res (List UInt8) :=
  match c with
  | .plain c => .ok (literalCompress c.coder v)
  | .huffman => litHuffCompress E.std v
  | .arithmetic => Arith.compress v
  | .sle k => litSleCompress k v

/-- compressors/LiteralEncoder.hpp:34-41 `decompress` -/
def LitEnc.decomp (c : LitEnc) (z : List UInt8) : Res (List UInt8) :=
  match c with
  | .plain c => literalDecompress c.coder z
  | .huffman => litHuffDecompress z
  | .arithmetic => Arith.decompress z
  | .sle k => litSleDecompress k z

/-- no restrictions: `meta()` calls neither `uses_textds`, `input_restrictions` nor `needs_sentinel_terminator` -/
def noRestr : Restr := Restr.make [] false

/-- Meta.hpp:262-283: `input_restrictions({0}, true)` (LZ78UCompressor.hpp:113), `needs_sentinel_terminator()` (LFSCompressor.hpp:43,
LFS2BSTCompressor.hpp:105) and `uses_textds` with a suffix array (BWTCompressor.hpp:23, LZSSLCPCompressor.hpp:31, LCPCompressor.hpp:93; SADivSufSort.hpp `restrictions`) -/
def sentinelRestr : Restr := Restr.make [0] true

/-- how NoopCompressor.hpp:25,50 reads its input -/
def noopReading (streamMode : Bool) : Reading := if streamMode then .stream else .view

/-- The compressor the registry creates: its restrictions, `as_view` or `as_stream` in `compress` and in `decompress`
(NoopCompressor.hpp:22-70, RunLengthEncoder.hpp:64-73, MTFCompressor.hpp:81-90, LiteralEncoder.hpp:20-42, LZ78Compressor.hpp:64-157,
LZWCompressor.hpp:39-133, LZSSSlidingWindowCompressor.hpp:38-144, LZSSLCPCompressor.hpp:40-131, LCPCompressor.hpp:98-150,
LZ78UCompressor.hpp:121-382, RePairCompressor.hpp:104-337, BWTCompressor.hpp:28-65, EspCompressor.hpp:40-88, lfs/LFSCompressor.hpp:55-101,
lfs/LFS2BSTCompressor.hpp:117-638; a `Decoder` opens its input as a stream, Coder.hpp:102-110), and the computation in between. -/
def Algo.comp (E : Sys) : Algo → Comp
  | .noop m d => leaf E.ps noRestr (noopReading m) (noopReading m) (fun v => .ok (noopRun m d v)) (fun z => .ok [noopRun m d z])
  | .rle o => leaf E.ps noRestr .stream .stream (rleEncode o) (fun z => oneChunk (rleDecode o z))
  | .mtf => leaf E.ps noRestr .stream .stream (fun v => .ok (mtfEncode v)) (fun z => .ok [mtfDecode z])
  | .literal c => leaf E.ps noRestr .view .stream (c.comp E) (fun z => oneChunk (c.decomp z))
  | .lz78 t c => leaf E.ps noRestr .stream .stream (fun v => lz78Compress (t.impl false v.length (HT.resLz78 v.length)) c.coder 0 v) (fun z => oneChunk (lz78Decompress c.coder z))
  | .lzw t c => leaf E.ps noRestr .stream .stream (fun v => lzwCompress (t.impl false v.length (HT.resLzw v.length)) c.coder 0 v) (fun z => oneChunk (lzwDecompress c.coder 0 z))
  | .lzss c w th => leaf E.ps noRestr .stream .stream (winCompress c.coder w th) (fun z => oneChunk (winDecompress c.coder w z))
  | .lzssLcp c pk th => leaf E.ps sentinelRestr .view .stream (c.lzssComp E pk th) (fun z => oneChunk (c.lzssDecomp z))
  | .lzssTextDS c lk ik m th => leaf E.ps sentinelRestr .view .stream (fun v => TObj.lzssWith c.coder ⟨v, E.saOf v, lk, ik⟩ m th) (fun z => oneChunk (lzssLcpDecompress c.coder z))
  | .lcpcomp c s d flat pk th => leaf E.ps sentinelRestr .view .stream (c.lcpComp E s flat pk th) (fun z => oneChunk (c.lcpDecomp d z))
  | .lz78u c1 c2 th => leaf E.ps sentinelRestr .view .stream (fun v => U78.compress c1.coder c2.coder (v.length + 1) th v)
      (fun z => oneChunk (U78.decompress c1.coder c2.coder z))
  | .lz78uHuffman c1 th => leaf E.ps sentinelRestr .view .stream (fun v => U78.compressHuff E.std c1.coder (v.length + 1) th v) (fun z => oneChunk (U78.decompressHuff c1.coder z))
  | .repairHuffman m => leaf E.ps noRestr .view .stream (RePair.compressHuff E.std m) (fun z => oneChunk (RePair.decompressHuff z))
  | .repair c m => leaf E.ps noRestr .view .stream (RePair.compress c.coder m) (fun z => oneChunk (RePair.decompress c.coder z))
  | .bwt => leaf E.ps sentinelRestr .view .view (fun v => bwtCompress v (E.saOf v)) (fun z => oneChunk (bwtDecompress z))
  | .esp c map => leaf E.ps noRestr .view .stream (c.comp map E) (fun z => oneChunk (c.decomp E z))
  | .lfsEsa l c1 diff pk => leaf E.ps sentinelRestr .view .stream (fun v => Lfs.compressESA E.std l.lit c1.coder diff pk v (E.saOf v))
      (fun z => oneChunk (Lfs.decompress l.lit c1.coder z))
  | .lfsBst l c1 m => leaf E.ps sentinelRestr .view .stream (Lfs.compressBst m E.std l.lit c1.coder) (fun z => oneChunk (Lfs.decompress l.lit c1.coder z))
  | .lfsSt l c1 m => leaf E.ps sentinelRestr .view .stream (fun v => Lfs.compressSt (E.kids v) m E.std l.lit c1.coder v) (fun z => oneChunk (Lfs.decompress l.lit c1.coder z))
  | .lfsSimSt l c1 m => leaf E.ps sentinelRestr .view .stream (fun v => Lfs.compressTree .simSt m E.std l.lit c1.coder (E.sdslTree v) v)
      (fun z => oneChunk (Lfs.decompress l.lit c1.coder z))
  | .lfs2 exact l c1 m => leaf E.ps sentinelRestr .view .stream (fun v => (Lfs2.compress (.lfs2 exact) m E.std l.lit c1.coder (E.sdslTree v) Lfs2.fresh v).map Prod.fst)
      (fun z => oneChunk (Lfs2.decompress l.lit c1.coder z))
  | .lfs2bst l c1 m => leaf E.ps sentinelRestr .view .stream (fun v => (Lfs2.compressBst m E.std l.lit c1.coder Lfs2.fresh v).map Prod.fst)
      (fun z => oneChunk (Lfs2.decompress l.lit c1.coder z))
  | .chain a b => Tdc.chain (a.comp E) (b.comp E)

end Tdc
