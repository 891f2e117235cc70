# Formal model of tudocomp — design

Source: `/repo` (C++), read as text. Everything here is Lean 4.33.0; Mathlib is used
module by module where a lemma is missing.

## Architecture of the model

1. **Bits and bytes.** `BitOStream` / `BitIStream` are modelled as the state machines they are
   (current byte, cursor, look-ahead byte, final flag).  An encoder's effect on a
   `BitOStream` is exactly the sequence of bits it passes to `write_bit`, so everything above
   the streams produces a `List Bool`; a decoder consumes a `List Bool` whose `readBit`/`eof` are
   proved to be what the byte level reader answers.
2. **Coders.** A coder is `enc : Rng → value → bits` and `dec : Rng → bits → value × bits`.
   A `Lawful` coder decodes what it encoded and leaves the rest untouched.  Each real coder is proved
   lawful.  Compressors are modelled on *tokens* (calls of `coder.encode(v, range)`), and round trips are
   proved for every lawful decoder, then instantiated down to bytes.
3. **Faults.** Undefined behaviour, non-termination and thrown exceptions are the distinct results of
   `Except Fault`.  Loops that are not structurally bounded take fuel; theorems say that enough fuel
   always exists (and how much).
4. **Spec files.** Property theorems are in `Verif/Props/*.lean`; models in `Verif/Model/*.lean`;
   helper lemmas in `Verif/Lemmas/*.lean` or next to models.

## Plan per property

| id | what is modelled | how it is proved |
|----|------------------|------------------|
| C01 | `BitOStream` writer incl. destructor, `BitIStream` reader | simulation invariant between writer state and bit list; reader abstraction function to the list of remaining bits |
| C02 | same | length of the output computed from the same invariant |
| C03 | all integer codes as loops of `write_bit`/`read_bit` | one op type, induction over op sequences |
| C04 | `bits_for`, `idiv_ceil`, `bytes_for` loops | induction |
| C05 | vbyte | strong induction on the value |
| C06 | five universal coders over `Rng` | `Lawful` instance for each, induction over token list, composed with C01 |
| C07 | LiteralEncoder, Noop | corollary of C06 |
| C08 | RLE on byte level with signed `char` comparison | run splitting induction; negation witness for inputs ending in FF FF; partial |
| C09 | MTF table as list of 256 bytes | invariant permutation; table states equal on both sides |
| C10 | LZ78 encoder over an abstract trie and decoder | dictionary invariant |
| C11 | LZ78 with dict_size | negation witness, decoder has no reset |
| C12 | LZW | phrase-table invariant incl. KwKwK; negations for dict_size; partial |
| C13 | each trie | refinement to a finite map; negation for the hash tries with byte 0 |
| C14 | sliding window LZSS | invariant of window buffers; negation for non powers of two with bit coder; partial |
| C15 | LZSS encode_text/decode_text | induction over factors |
| C16 | lzss_lcp over an arbitrary correct SA/ISA/LCP | invariant |
| C17 | bwt, LF, decode | LF mapping theorem via stable counting sort; negation for byte 255 |
| C18,C19,C20,C22 | EscapeMap, RestrictedBuffer, Restricted streams | induction over bytes; negations where code deviates |
| C21 | InputRestrictions | sorted-dedup lists are canonical |
| C23 | Input slices and the buffer cache | state machine refinement |
| C24 | CompactHash | util/compact_sparse_hash.hpp: hash function, buckets, shifting, groups, insert/index/search, growing; compressors/lz78/CompactSparseHashTrie.hpp; util.hpp `isqrt`, `zero_or_next_power_of_two`. Not modelled: allocation and destruction of values, freeing buckets while growing, bit packing of quotients, statistics |
| Rolling | ZBackupRollingHash, WordpackRollingHash of util/Hash.hpp |
| HashTries | compressors/lz78/{HashTrie,HashTriePlus,RollingTrie,RollingTriePlus}.hpp on util/Hash.hpp (`incorporate`, `SizeManagerDirect` growth included); load factors and products with 0.95 are exact rationals |
| DivSufSort, DivSufSortMid, DivSufSortSS, DivSufSortIntro, DivSufSortMerge, DivSufSortSwap | util/divsufsort.hpp:46-287 (whole file); divsufsort_bufwrapper.hpp; divsufsort_ssort.hpp:42-485 (`ss_isqrt`, `ss_compare`, `ss_insertionsort`, `ss_heapsort`, `ss_pivot`, `ss_partition`, `ss_mintrosort`, `ss_blockswap`, `ss_rotate`, `ss_inplacemerge`), :489-680 (`ss_mergeforward`, `ss_mergebackward`, `ss_swapmerge`: modelled and run on examples; that it meets its contract `SwapMergeOk` is not proved but a hypothesis) and :690-759 (`sssort`); not: `trsort`, which is a parameter with the contract `RankSortOk` |
| Cedar | compressors/lz78/{cedar.hpp,CedarTrie.hpp} (not: erase, save/open, suffix, prediction) |
| EspIPD | compressors/esp/{HashMap.h,HashMapIPD.hpp,StdUnorderedMapIPD.hpp,DynamicSizeIPD.hpp,GrammarRules.hpp} (HashMap.h: what `operator[]`, `insert` and the iterators use; not erase, find) |
| Stat, Json, Malloc | tudocomp_stat/{StatPhase,PhaseData,Json}.hpp, src/tudocomp_stat/malloc.cpp (byte counts are integers; no floating-point values; no blocks of other allocation functions) |
| Cedar, EspIPD | compressors/lz78/{CedarTrie,cedar}.hpp; compressors/esp/{HashMap.h,HashMapIPD,StdUnorderedMapIPD,DynamicSizeIPD}.hpp |
| KarpRabin | util/hash/rabinkarphash.h, util/hash/characterhash.h (`maskfnc`; the random generator is an arbitrary table) |
| View | pre_header/GenericViewBase.hpp, util/GenericConstView.hpp, util/GenericConstU8View.hpp, util/View.hpp (iterators and stream output: not modelled) |
| MemStream, Output | io/{ViewStream,Output,OutputStream,BackInsertStream,VectorStreamBuffer}.hpp (streams open at the same time on one file: not modelled) |
| Chain | composition lemma over abstract lossless compressors |
| C25,C26 | Huffman pipeline | canonical code lemma, Kraft invariant of the heap loop |
| C27 | SLE | simulation with the k-mer buffer |
| C28 | `uint_t<N>` and its operators, integer promotion included; programs over variables | refinement to arithmetic modulo 2^N by induction over programs |
| C29,C30 | Rank, Select | block sum invariants, bit lists as specification |
| C31 | ArrayMaxHeap as code (heap array and position array) | permutation and position invariants over all histories; negation for remove and key 0 |
| C32 | HashMap with arbitrary hash, prober and size manager | probe invariant, refinement of a finite map; negations for non-terminating probers |
| C33 | ISA, Phi, PLCP, LCP from SA | Kasai argument over the predecessor relation |
| C34 | TextLiterals iterator | induction over factors |
| C35 | driver header writing and reading | induction over the header, composed with C23, C24 |
| C36 | the heap loop of `gen_codelengths` as a Huffman tree | exchange argument over trees, then Kraft's inequality for all prefix free codes |
| C37 | BitPackingVector on 64 bit words, IntPtr shifts and masks | refinement of a list of integers modulo 2^w over operation histories |
| C38 | the four decode buffers | rank (depth) of the reference graph; each buffer writes a position at most once and with the right character |
| C39 | ArraysComp, MaxLCP (MaxLCPSuffixList), BoostHeap, MaxHeap, PLCPPeaks, PLCPStrategy, Naive, Bulldozer | common greedy specification `Greedy` over clipped LCP values; each queue refines it; PLCPStrategy: every copy is blocked by a factor at least as long, so the factors sorted by length are greedy; Naive: the marked positions are the copied ones; Bulldozer: processes an empty vector (shown also: what it would do without the shadowing); negation for MaxHeap |
| C40 | `compress`/`decompress` of lcpcomp | C39 gives acyclic correct factors, C38 decodes them, C15/C25/C27 code them |
| C41 | `flatten` | induction on the rank of the source chain |
| C42 | ArithmeticCoder encoder and decoder on 64 bit intervals | invariant: interval never empty, decoder's interval equals the encoder's, codes end at the same symbols; negations |
| C43 | RePairCompressor, linked list of live positions | list segment invariant; grammar derivations; C06/C25 for the coding |
| C44 | same | the `do`-loop refines the relation `Runs` (Spec/RePair.lean) |
| C45 | LZ78U: suffix tree by its definition, both strategies, decoder | descent invariant; factor numbers stored per node; negation for the width of R and threshold 0 |
| C46 | SparseISA: both construction loops, queries, on the Rank of C29 | cycle decomposition by smallest elements (Mathlib's minimal periods); marks and short cuts characterized by offsets |
| C47 | CompressedLCP on the Select of C30; LCPSada; forward iterator on words | unary code of a slowly falling sequence: entry j ends at value + 2j; iterator invariant on word ranks |
| C48 | the four generators, `reserve`, the `char` conversion; random engine = any sequence of values in range | loop invariants against the recursive words; parity of binary ones |
| C49 | the recursive parser on suffixes of the text, `to_string`; grammar in Spec/AlgoGrammar | bundled induction on fuel (termination, soundness) and on token length (completeness); printed values are derivable |
| C50 | `eval`, `Meta::gather_types`, `Registry`, `Builder`, `Env::option` on the values of C49; meaning in Spec/OptionSemantics | mutual induction on fuel both ways between `eval` and `Means`; rank of declarations for termination (types are gathered bottom up); congruence of `eval` in the last given values |
| C51 | `LFSCompressor`, `EncodeStrategy`, `ESAStrategy` on the arrays of C33 | general round trip for any list of rules and covering non-terminals; invariant of the strategies (dead positions = replaced positions, disjointness, decreasing lengths, two uses per rule); suffix array neighbours share their lcp |
| C52 | `SimSTStrategy`, `BSTStrategy`, `STStrategy` over any sound suffix tree (a table of inner nodes) | the lists of positions of the nodes are sorted, start occurrences of the label and stay so while they move up; the invariant of C51 for the grammar; for `st` additionally that the lists are never empty when `back()` is called |
| C53 | `LFS2Compressor`, `LFS2BSTCompressor` over any sound suffix tree, including the members an object keeps between calls | invariant of the two layers (offsets describe disjoint blocks; representatives are blocks; second layer blocks lie inside one representative and carry larger numbers); decoding by induction over the rules from the last to the first; at most as many literals are announced as the text has |
| C54 | `SuffixTree` (nodes and maps), `BinarySuffixTree` (arrays and linked lists), the traversal `compute_string_depth` | invariant of Ukkonen's algorithm (labels, edges, active point, suffix links, pending link) for each iteration of the loop; simulation of the node algorithm by the arrays with bounds; the invariant implies the definition of a (implicit) suffix tree in Spec/SuffixTreeDef; the traversal of any such tree gives the table assumed in C52 and C53 |
| C55 | `EspCompressor` with `PlainSLPCoder`: splitting into meta blocks, alphabet reduction, landmarks, block adjustment, rules of a round, rounds, coder; the map of a round is abstract with any traversal order | label passes keep neighbours distinct and shrink the alphabet to 6; landmarks are at distance 2 or 3, so spans partition; adjusting leaves blocks of length 2 and 3; rules name blocks injectively; induction over rounds |
| C56 | the same | depth grows by two per round while the length halves; each rule has a position of its own in the text |
| C57 | `SortedSLPCoder`, `SLPDepSort` with the linked child lists and the queue | child lists enumerate the rules by left symbol, so the queue visits every rule once (rules refer to smaller symbols); renaming is a bijection that keeps derivations; coder of right-hand sides by its contract (Spec/DCoding) |
| C58 | `DPlain`, `DDiff`, `DRangeFit` (wt = false and wt = true), `encode_unary_diff` | induction over the list with the last value; suffix minima bound the values; the failing `CHECK` characterized |
| C59 | `DMonotonSubseq`, `DWaveletTree`, `make_wt`, `extract_wt`, `recover_D_from_encoding` | wavelet tree: every level is the stable bit reversal order of the text, the nested iterators read back the borders; recovery: circular lists per subsequence enumerate their members in text order (Spec/Subseq gives the contract of the strategies, Spec/DCoding that of the name coder) |
| C60 | `SubSeqGreedy`, `SubSeqOptimal` (class `L`) | free list as a doubly linked list of the ascending remaining links; layers are antichains whose elements are dominated by the layer before, so the walk finds a chain through all layers and no chain is longer |
| C61 | esp/HuffmanCoder.hpp, `DHuffman` | the lemmas of C25, C26, C36 (code lengths from an arbitrary heap, canonical codewords, optimality) for unbounded alphabets; counts as a function, the map of symbols as an injection |
| C62 | compact_sparse_hash.hpp, CompactSparseHashTrie.hpp (as repaired: guarded runs) | sparse layer = partial function of positions; positions renumbered from an empty slot, so that clusters do not wrap (`LinInv`); group search by counting bits; map abstraction kept by insert/grow; the trie in lockstep with `HashTrie`; LZW's 256 root nodes by kernel evaluation in stages |
| C63 | util/Hash.hpp:307-352, RollingTrie.hpp | hash values are numbers in base 257 with signed digits modulo 2^64, unique up to seven digits; a factor of length l needs l(l+1)/2 characters of text; collisions from (x-1)^8 |
| C64 | HashTrie.hpp, HashTriePlus.hpp, RollingTrie.hpp, RollingTriePlus.hpp, util/Hash.hpp | lockstep of the tries on real tables with those on lists of keys, in both directions (soundness, totality); a second table of nine cells with load factor 95 reserves nine cells for ever |
| C65 | divsufsort.hpp, divsufsort_ssort.hpp (comparison, insertion sort, heap sort, multikey introsort, rotation, merge in place, blocks of `sssort`), divsufsort_bufwrapper.hpp | order of suffixes as a relation on positions; ranks from the left and from the right by counting; invariants of the two scans: a suffix is in its cell as soon as the suffix behind it is passed, bucket pointers equal counts. Before that: the buckets as filters of the numbers; each bucket sorted by substrings and marked; the loop of the ranks by groups from the right; a B* suffix is ordered by its substring and then by the next B* suffix, so the order of the sequences of ranks is that of the suffixes. Introsort: a list of disjoint parts of the array, each with equal first characters; one round replaces a part by smaller ones (`StepPost`), the sum of the remaining lengths falls, and size² · 3^depth bounds the stack. Rotation as a map of positions; merge in place by rounds; the blocks as a binary counter of sorted runs (`Runs`). Contracts for `trsort` and `ss_swapmerge` |
| C66 | compressors/lz78/cedar.hpp (`update`, `traverse` and what they call), CedarTrie.hpp, as an instance of the trie interface of LZ78 | executable model of the double array with its block lists; witnesses evaluated by the kernel (the claim is false) |
| C67 | esp/{HashMap.h,HashMapIPD,StdUnorderedMapIPD,DynamicSizeIPD}.hpp, GrammarRules.hpp and the rounds on top of them | each map keeps an association list up to order (reachability of cells under linear probing, growth, change of width); histories by induction; in ESP the reserved keys of each width are below a value already stored, so the rounds are those of C55 |
| C68 | StatPhase.hpp, PhaseData.hpp: the stack of phases, tracking, logging, split, report | programs as trees of actions; induction over the program: the stack after a block is the stack before it with the block's memory events applied to every phase; invariant off + current = current of the parent for split |
| C69 | Json.hpp: values, escaping, printing | RFC 8259 grammar as a relation between texts and values; structural induction; necessity by a length argument (every text of a string is at least as long as the string with one more byte per quote) |
| C70 | malloc.cpp: malloc, free, realloc, calloc with an abstract C library | specification of the four functions as a relation on memories; invariant on the headers by induction over the calls |
| C71 | `KarpRabinHash` | Horner's rule by induction from the right; the window by cancelling the leading term modulo 2^64. For C63: pigeonhole on the states gives two paths of nine bytes with the same state, a text that stores all their prefixes, and then two texts with the same compressed form |
| C72 | Views as offset and size in a memory block, all operations of the base class, `size_t` arithmetic modulo 2^64 | each operation against the operation on the shown string (`drop`/`take`); histories by induction; comparisons by induction on the sizes |
| C73 | `membuf` with addresses modulo 2^64 below an `std::istream` with its state bits | simulation by a cursor in the string, one step per call |
| C74 | `Output` handles with overwrite flag and restrictions; streams as sessions | induction on the steps; each session by the round trip of C18 |
| C75 | `Algo`: the registered compressors with restrictions, way of reading, and the computations modelled elsewhere; `Algo.Safe` names the texts for which each is right | composition of the lossless theorems with restrictions (C18–C21), chains (C24) and the driver (C35), induction on the nesting of chains |
| C76 | the `TextDS` object as a state machine: optional structures, requested flags, addresses of suffix arrays, packing modes | invariant: every structure present has the one contents determined by the text (PLCP up to its last entry) and its pointer leads to the suffix array held; induction over the history; counterexample histories for every text |
| C77 | the arrays a compressor reads from that object; `lzss_lcp` on them | the readings are unique but for LCP entry 0, which only a search that already has length 0 can reach |
| C78 | `encode` with the coders that look at the text first: announcing all literals, writing them, and the loop `while(!eof())` of the decompressor | the decoder state after the header accepts exactly the codes written; the padding is too short for another code word; negations for byte 255 and the k-mer lengths 0, 8, 9 and more |
| C79 | the decompressors already modelled, on arbitrary bytes; out-of-bounds accesses, over-wide shifts and endless loops are outcomes of the model | every decode call consumes a bit while there is one; LF values are below the length; dictionary entries refer to older entries; for lz78 and lzw an exact characterisation of the bad inputs; negations by families of zero bytes and witnesses |
| C80 | `JudyTrie` as the array it keeps (key = number of the parent and character; the Judy library itself is trusted to be an array) | the trie refines the dictionary of C02/C03 up to the number returned for a new node, which the compressors ignore (renumbering lemma); negation for lzw and the byte 0 for all characters and coders |

## Trusted base

* Lean's kernel (4.33.0). No `native_decide`, no own axioms. `#print axioms` of every theorem in MANIFEST.json gives a subset of
  `propext`, `Classical.choice`, `Quot.sound`. Concrete witnesses are evaluated by the kernel (`decide`, `decide +kernel`).
* Faithfulness of the model to the C++ text, by reading: each definition cites file and lines; simplifications are named there.
* Assumptions that appear as hypotheses or parameters of theorems, never as axioms:
  - `StdLib` (Model/Huffman.lean): `std::make_heap/push_heap/pop_heap/sort` meet their contracts (any conforming implementation).
  - the suffix array computed by divsufsort is a suffix array (`IsSA`; `exists_isSA` proves one exists for every text; C65 proves it for
    divsufsort up to the contracts of `trsort` and `ss_swapmerge`).
  - `boost::heap` delivers a largest element (Lemmas/LcpPQ.lean: any choice of a largest element is covered).
  - `std::unordered_map`, `std::map`, `std::vector`, `std::multimap` are finite maps and sequences.
  - `sdsl` rank support (used by ScanDec/CompactDec) is exact.
* Machine model: `size_t` and `uint64_t` 64 bit, `len_t` 32 bit (the default build), `char` signed (x86), two's complement.
  Out-of-bounds access, shifts by the width or more, `front()` of an empty container and the like are `Fault.ub`; a theorem that
  says `.ok` therefore also says that none of them happens.

## What is modelled

| model | source |
|-------|--------|
| BitIO, VByte | io/BitOStream.hpp, io/BitIStream.hpp, util/vbyte.hpp, bit helpers of util.hpp |
| Coders | Coder.hpp, Range.hpp, coders/{ASCII,Bit,EliasGamma,EliasDelta,Ternary}Coder.hpp |
| Huffman, SLE, Arithmetic | coders/{HuffmanCoder,SLECoder,ArithmeticCoder}.hpp, util/Counter.hpp |
| Simple | compressors/{LiteralEncoder,Noop,MTF,RunLengthEncoder} |
| LZ78, LZW, Trie, Judy | compressors/{LZ78,LZW}Compressor.hpp, lzw/LZWDecoding.hpp, lz78/{Binary,BinarySorted,Ternary,Hash,ExtHash,Rolling,Judy}Trie.hpp |
| LZSSWindow, LZSSLCP, LZSSCoding, LZSSLiterals, LZSSStateful | compressors/LZSS*.hpp, lzss/*.hpp |
| LcpComp, LcpPLCP, LcpDec | compressors/LCPCompressor.hpp, lcpcomp/compress/{PLCPStrategy,ArraysComp,MaxLCPStrategy,MaxHeapStrategy,BoostHeap,PLCPPeaksStrategy}.hpp, lcpcomp/decompress/{ScanDec,CompactDec,DecodeQueueListBuffer,MultiMapBuffer}.hpp |
| RePair | compressors/RePairCompressor.hpp |
| BWT, TextDS | ds/bwt.hpp, compressors/BWTCompressor.hpp, ds/{TextDS,ISAFromSA,PhiFromSA,PLCPFromPhi,LCPFromPLCP}.hpp |
| LZ78U | compressors/LZ78UCompressor.hpp, lz78u/{SuffixTree,StreamingStrategy,BufferingStrategy}.hpp |
| SparseISA, CompLCP | ds/{SparseISA,CompressedLCP,LCPSada}.hpp |
| BPV, UintT, Rank, Heap, HashMap | ds/{BitPackingVector,IntPtr,IntRepr,uint_t,Rank,Select,ArrayMaxHeap}.hpp, util/{IntegerBase,Hash}.hpp |
| Restrict, Input | io/{EscapeMap,InputRestrictions,RestrictedBuffer,RestrictedIOStream,Input,InputAlloc,InputSource,InputView,InputStream}.hpp |
| AlgoParser | util/algorithm_parser/{ASTDef,AlgorithmAST}.hpp |
| OptionEval | util/algorithm_parser/{AlgorithmStringParser,AlgorithmDecl,AlgorithmPattern}.hpp, Meta.hpp, OptionValue.hpp, Registry.hpp, CreateAlgorithm.hpp, Env.hpp (not: all_algorithms_with_static, generate_doc_string, as_floating, error texts) |
| LFSCoding, LFS | compressors/lfs/{LFSCompressor,EncodeStrategy,ESAStrategy}.hpp (`std::abs` of unsigned differences is a parameter) |
| LFSTree | compressors/lfs/{SimSTStrategy,BSTStrategy,STStrategy}.hpp: `compute_rules` (not the construction of the sdsl tree) |
| SuffixTree | ds/SuffixTree.hpp |
| BinarySuffixTree | ds/BinarySuffixTree.hpp |
| SuffixTreeRead | the accessors of both trees, `compute_string_depth` of compressors/lfs/{BSTStrategy,STStrategy,LFS2BSTCompressor}.hpp |
| LFS2 | compressors/lfs/{LFS2Compressor,LFS2BSTCompressor}.hpp (not the logged grammar depth) |
| Generators | generators/{Fibonacci,ThueMorse,RunRich,RandomUniform}Generator.hpp |
| Esp | compressors/EspCompressor.hpp, compressors/esp/{EspContext,EspContextImpl,RoundContext,RoundContextImpl,meta_blocks,landmarks,esp_math,utils,BlockAdjust,TypedBlock,GrammarRules,SLP,PlainSLPCoder}.hpp (not: DCHECKs, statistics, reservations) |
| EspSorted, EspD | compressors/esp/{SLPDepSort,SortedSLPCoder,DRCoder}.hpp (of DRCoder: DPlain, DDiff, DRangeFit with wt = false) |
| EspFitWT | compressors/esp/DRCoder.hpp, DRangeFit with wt = true |
| EspWT, EspSubseq | compressors/esp/{wt_pc,MonotoneSubsequences,SubseqStrategy}.hpp, DMonotonSubseq and DWaveletTree of DRCoder.hpp |
| EspHuffman | compressors/esp/HuffmanCoder.hpp, DHuffman of DRCoder.hpp |
| EndToEnd | etc/registry_config.py:227-245 (which compressors are registered), the `meta()` restrictions and the reading of the input in compressors/*.hpp |
| TextDSObj | ds/{TextDS,ArrayDS,CompressMode,TextDSFlags}.hpp (print: not modelled; moving a CompressedLCP or SparseISA faults at the move instead of the next read) |
| LiteralEntropy | compressors/LiteralEncoder.hpp with coders/{HuffmanCoder,SLECoder}.hpp |
| Chain | tudocomp_driver/{ChainCompressor.hpp,tudocomp_driver.cpp}: header, algorithm dispatch |

## What is not modelled

* in divsufsort: `trsort` (and nothing is proved of `ss_swapmerge`, the merging of blocks of 1024 substrings with a buffer, which is modelled); logging, the registry's template instantiation, `mmap` system calls (MMapHandle is a copy of the file),
  `std::istream` error states. Outside C70 allocation never fails.
* sdsl's suffix tree, lz_trie: see the notes in MANIFEST.json and the list of properties for what has been added since.

## Findings

Deviations of the code from the property a user would expect, each proved as a negation (a witness or a whole family):

1. RLE never terminates on inputs ending in FF FF (C08).
2. LZ78 with a bounded dictionary is not decodable; gamma/delta with a negative left-over character is undefined (C10, C11).
3. Hash tries confuse byte 0 below node 0 with root nodes: LZ78/LZW lose bytes (C10, C12, C13).
4. LZW with dict_size <= 256, or the bit coder with dict_size 512, fails (C12).
5. LZSS sliding window: bit coder with a window that is no power of two, window 0 (C14).
6. BWT of texts with byte 255 (C17).
7. Escaping: pool of 13 replacement bytes; unrestricting a null-termination-only buffer with byte 255 (C18, C22).
8. Input slices: five deviations of positions and sizes (C23).
9. Driver header longer than 1023 characters (C35).
10. Huffman with byte 255 and a second byte writes out of bounds (C25).
11. SLE with k = 0, 8 or more, and empty announcements (C27).
12. uint_t: unstored expressions, uint_t<1>, numeric_limits (C28). Select0 counts padding (C30).
13. ArrayMaxHeap loses its order after `remove`; key 0 leaves the array (C31); hence MaxHeapStrategy overlaps factors and lcpcomp with
    it is lossy (C39, C40).
14. HashMap: quadratic probing and SizeManagerNoob may not return (C32).
15. BitPackingVector: stale values after resize, resize with width (C37).
16. threshold 0 of lzss_lcp and lcpcomp (C16, C39).
17. Arithmetic coder: byte 255, rare byte 0, empty text (C42).
18. RePair: empty text reads out of bounds; Huffman coder with symbol 511 (C43).
19. LZ78U: entries of R too narrow for the number of factors (lossy, 72 characters); threshold 0 never ends (C45).
20. SparseISA with t = 0 divides by zero; CompressedLCP[0] is not 0 (C46, C47).
21. Generators: Thue-Morse half as long as documented, run_rich off by one, random over 127/128, fib(0) (C48).
22. Algorithm strings: text behind a complete value is dropped; printing does not escape double quotes (C49).
23. Options: a duplicate option is accepted and the last one wins, malformed integers are accepted, an empty string counts as missing; several
    user errors (positional after keyword, a string where an algorithm is expected) end in an assertion instead of an exception (C50).
24. lfs: min_lrf = 0 lets the loop over the bins wrap around (all suffix tree strategies); st doubles its bins only once per node and
    writes behind them for deep nodes (C52).
25. lfs2, lfs2bst: min_lrf = 0 as above; lfs2 with min_lrf = 1 runs over the start of the empty text; rules, bins and positions are not cleared, so
    an object cannot be used twice (C53).
26. BinarySuffixTree of a single character writes out of bounds, without characters it throws; hence lfs2bst with min_lrf = 1 and the empty text
    (C53, C54).
27. esp, DRangeFit: the CHECK on the number of bits counts sign bits that are not written, so compression ends the program whenever unary code is
    chosen and the minima are not all 0, e.g. for the text 01 01 (C58).
28. compact_sparse_hash: when a group must be shifted and the next free position is position 0, `sparse_shift(0, 0)` accesses bucket
    2^58 - 1: three insertions into a new table are enough, LZ78 fails on a text of 81 characters (C62).
29. compact_sparse_hash: `index` returns a reference computed before the last element is put in place; in tables of up to 64 positions it can
    belong to another key. LZ78 with compact_sparse_hash does not reproduce `~?>?` (C62).
30. compact_sparse_hash: the number of buckets is always 4032 (size instead of capacity, shift in the wrong direction); tables of 2^18 and
    more positions access memory out of bounds (C62).
31. compact_sparse_hash: `insert` of an existing key assigns the stored value to the argument instead of the other way round (C62).
32. util.hpp `isqrt` starts at bit 6 instead of bit 62 and never returns more than 15, so the tries reserve at most 30 entries (C62).
33. Rolling hashes: the base is 257 (`val += val << 8`), and 256^8 = 2^64, so strings that differ by the coefficients of (x-1)^8 collide in every
    context; zbackup maps byte 255 to the value of the empty string (`% -1`), whence LZW has 255 root nodes and every later number is wrong
    (`abab` comes back as `ab\xff`); zero bytes do not change the value of an empty path (C63).
34. hash_plus and rolling_plus: after the change-over the second table has load factor 0.95; with `SizeManagerDirect` or `SizeManagerNoob` (their
    defaults) a table of nine cells that gets its ninth entry with the last character reserves nine cells again, without end (`aabcdefgh`).
    A restart of the dictionary (`dict_size`) after the change-over inserts into the released first table (C64).
35. lz78 with the trie cedar: the position of the root in the double array is kept in `m_roots` (CedarTrie.hpp:55, 225), but the root is a cell
    like the others and moves when another node needs its cell. `zyxzxzzxxxzx` reads outside the array, FE 00 FE 00 comes back as FE 00 00 00
    (C66). LZW keeps 256 such positions; simulation shows the same fault (bytes 180 118 181 6 180 180 181 181 255 6 118), not proved.
36. dynamic_size of hash_map: `can_fit_key` is not asked again after the width was changed for a key. The key (65535, 65535) in a map of 8-bit
    numbers gives a map of 16-bit numbers whose marker of empty cells is this key: the entry is written and lost (an assertion in debug builds).
    ESP itself is not affected (C67).
37. Statistics: titles, keys and values are copied with `strncpy` into buffers of 64 bytes; one of 64 bytes or more is left without a terminator and the report
    reads past its end (C68). Logged numbers go through `std::to_string`, which for a double of 1e70 gives more than 64 bytes.
38. Statistics: `log_stat`, the beginning of a phase and `to_json` call `resume` without asking whether tracking was paused, so that what follows is counted;
    `log_stat` of an outer phase pauses only this phase, so that its own allocations are counted in the phases inside it (C68).
39. Json: only quotes are escaped. A backslash or control character gives a text of another string, or none; names are not escaped at all (C69).
40. malloc.cpp: `calloc` does not check its product (2^62 + 1 times 4 gives 4 bytes), `malloc` and `realloc` add the header size without a check, a failing `realloc`
    or `calloc` writes through the null pointer (C70).
41. esp, DRangeFit with wt = true and a threshold of 200 or more: the sentinel 2^64 - 1 counts as close to every maximum, so every range is 2^64 - 1 and the
    construction of the wavelet tree shifts an `int` by 64, for every input with a rule (C58).
42. Rolling tries: with any rolling hash of finitely many states, LZ78 and LZW are lossy on some text; for 64-bit states (all registered functions) and LZ78
    one of at most 100 bytes, for every choice of the random keys of Karp-Rabin (C63).
43. lcpcomp, BulldozerStrategy (not registered): the intervals are put into a vector that shadows the one processed, so no text is ever compressed;
    NaiveStrategy (not registered) with threshold 0 does not terminate (C39).
44. View: `remove_suffix(size()+1)` silently does nothing, in debug builds too (the difference is `npos`); `substr` does not clamp the length as `std::string::substr`, after which it is named: without debug checks the result shows memory behind the view; `pop_back` on an empty view gives a view of 2^64-1 bytes (C72).
45. ViewStream: `seekg(-k, end)` fails for every k > 0 (the offset is subtracted); a negative position is accepted and the next read is in front of the
    memory; in debug builds every `seekg`/`tellg` aborts (the assertion demands `in | out`) (C73).
46. Output: a restricted copy of an overwriting Output truncates the file again; a failed attempt to open the file clears the overwrite flag (C74).
47. With the Huffman coder `lzss_lcp`, `lcpcomp` and `lfs_comp` cannot compress any text with a byte 0 or 255 (a consequence of the defect of the Huffman
    coder with byte 255: the input is escaped with exactly this byte) (C75).
48. `bwt` in the driver silently loses every text that ends with byte 255, has no byte 0 or 254 and any other byte (C75; consequence of the defect in C17).
49. TextDS: `release_x` leaves an empty structure behind that later `require_x` calls give out as if it were complete (C76).
50. TextDS: `require(LCP)` with CompressedLCP or `require(ISA)` with SparseISA throws the suffix array away to which the new structure points; every read
    is undefined. `inplace_lcp`/`inplace_isa` of these structures throw. Compressors in the registry always request SA as well (C76).
51. TextDS: a reference from `require_phi()` dangles after `require_plcp()` or `require_lcp()` unless PHI was passed to `require` (C76).
52. `encode` with the SLE coder: with `kmer` above 1 the empty text, with `kmer` 0 every other text and with `kmer` above 8 every text of at least `kmer` bytes
    makes the compressor run into undefined behaviour; with `kmer` 8 the text of eight letters `a` comes back changed (C78).
53. Decompressing data that no compressor wrote (C79): with the coders `gamma`, `delta` and `ternary` every decompressor that starts with a code word hangs on two or more zero bytes
    (`read_unary` at the end of the data); `lz78` follows references to the factor itself (without end, until the memory is used up) or to later ones (out of bounds); `lzw` takes `front()`
    of an empty string if the first code is 256; `lzss`, `lzss_lcp`, `lcpcomp`, `esp`, the Huffman decoder read or write out of bounds; `repair` recurses without end on a rule that refers to itself; `rle` shifts by
    70 bits after ten bytes with the high bit, and with `offset` above 0 a missing run length stands for 2^64 - offset characters.
54. `lz78::JudyTrie` stores a root under its number and every other node under its number plus 1 (JudyTrie.hpp:53, :74), and `find_or_insert` subtracts 1 always (:78). With `lzw`, the child `c` of the
    root 0 has the key of the root `c` and is taken to be the node `c - 1`: the text `0, c` is compressed to the single code `c - 1` and becomes the one byte `c - 1`.
