{"id": "C01", "title": "Bit stream round trip", "statement": "If a program writes any sequence of bits to a BitOStream and closes it, a BitIStream opened on the produced bytes returns exactly those bits in order, reports eof() as false before each of them and true after the last one, and keeps returning 0 afterwards.", "quantifier": "every finite bit sequence (every length modulo 8, every content of the last three bits)", "why_tests_cant": "the end marker is folded into the last byte in two different ways depending on the length modulo 8 and the reader must look two bytes ahead; the number of streams is infinite and the tail cases combine with data bits that look like a marker", "anchors": ["include/tudocomp/io/BitOStream.hpp: write_bit, write_next, ~BitOStream", "include/tudocomp/io/BitIStream.hpp: BitIStream(), read_next, read_bit, eof"]}
{"id": "C02", "title": "Bit stream size", "statement": "Closing a BitOStream after n bits yields exactly ceil((n+3)/8) bytes, i.e. the smallest number of bytes that holds the n bits plus a 3-bit trailer.", "quantifier": "every number and content of written bits", "why_tests_cant": "the claim is about every length", "anchors": ["include/tudocomp/io/BitOStream.hpp: ~BitOStream, write_bit"]}
{"id": "C03", "title": "Integer codes round trip in any mixture", "statement": "Any sequence of write_int/write_unary/write_ternary/write_elias_gamma/write_elias_delta/write_compressed_int calls on one BitOStream is read back value for value by the same sequence of read_* calls on a BitIStream over the produced bytes, and the reader is at eof exactly after the last value.", "quantifier": "every finite heterogeneous sequence of codes and every value that fits the requested width / the value type", "why_tests_cant": "values and sequences are unbounded and each code must consume exactly its own bits", "anchors": ["include/tudocomp/io/BitOStream.hpp: write_int, write_unary, write_ternary, write_elias_gamma, write_elias_delta, write_compressed_int", "include/tudocomp/io/BitIStream.hpp: read_int, read_unary, read_ternary, read_elias_gamma, read_elias_delta, read_compressed_int"]}
{"id": "C04", "title": "bits_for is the exact bit width", "statement": "bits_for(n) is the least number of bits b >= 1 such that n < 2^b; idiv_ceil and bytes_for round up exactly.", "quantifier": "every unsigned integer", "why_tests_cant": "infinite domain; off-by-one at powers of two silently truncates encoded values", "anchors": ["include/tudocomp/util.hpp: bits_for, bits_hi, idiv_ceil, bytes_for"]}
{"id": "C05", "title": "vbyte round trip", "statement": "write_vbyte followed by read_vbyte returns the value and consumes exactly the bytes written, for any concatenation of values and whatever follows.", "quantifier": "every sequence of unsigned values and every following byte string", "why_tests_cant": "infinite value domain and framing independent of following data", "anchors": ["include/tudocomp/util/vbyte.hpp: write_vbyte, read_vbyte"]}
{"id": "C06", "title": "Entropy coders round trip for any token sequence", "statement": "For each of the universal coders (ascii, bit, gamma, delta, ternary), encoding any sequence of values with ranges (integer ranges, literal range, bit range) and decoding with the same ranges returns the same values, and eof() is true exactly after the last one.", "quantifier": "every coder, every finite sequence of (value, range) pairs with the value inside its range", "why_tests_cant": "the ranges change from call to call and decoding depends on consuming exactly the right number of bits for every value", "anchors": ["include/tudocomp/Coder.hpp: Encoder::encode, Decoder::decode, Decoder::eof", "include/tudocomp/Range.hpp", "include/tudocomp/coders/ASCIICoder.hpp", "include/tudocomp/coders/BitCoder.hpp", "include/tudocomp/coders/EliasGammaCoder.hpp", "include/tudocomp/coders/EliasDeltaCoder.hpp", "include/tudocomp/coders/TernaryCoder.hpp"]}
{"id": "C07", "title": "Literal encoder and noop are lossless", "statement": "encode (LiteralEncoder) with any universal coder, and noop, reproduce every input byte string exactly after decompression.", "quantifier": "every byte string, every universal coder", "why_tests_cant": "inputs are unbounded", "anchors": ["include/tudocomp/compressors/LiteralEncoder.hpp", "include/tudocomp/compressors/NoopCompressor.hpp"]}
{"id": "C08", "title": "Run-length encoder is lossless", "statement": "Decompressing the output of rle returns the input.", "quantifier": "every byte string and every offset option", "why_tests_cant": "run lengths are unbounded and the encoder compares a signed char with an int peek result, so behaviour depends on byte values and what follows", "anchors": ["include/tudocomp/compressors/RunLengthEncoder.hpp: rle_encode, rle_decode"]}
{"id": "C09", "title": "Move-to-front is lossless", "statement": "mtf decoding inverts mtf encoding for every input and the recency table stays a permutation of all 256 byte values.", "quantifier": "every byte string", "why_tests_cant": "the table state depends on the whole history of the input", "anchors": ["include/tudocomp/compressors/MTFCompressor.hpp: mtf_encode_char, mtf_decode_char, mtf_encode, mtf_decode"]}
{"id": "C10", "title": "LZ78 is lossless", "statement": "lz78 with an unlimited dictionary decompresses to the original input with every universal coder and every trie.", "quantifier": "every byte string, every universal coder, every trie", "why_tests_cant": "dictionary contents and the code widths depend on the whole history; the incomplete last factor is a special case", "anchors": ["include/tudocomp/compressors/LZ78Compressor.hpp: compress, decompress", "include/tudocomp/compressors/lz78/*.hpp"]}
{"id": "C11", "title": "LZ78 with a bounded dictionary is lossless", "statement": "The dict_size option of lz78 only changes the compression rate: output still decompresses to the input.", "quantifier": "every byte string and dict_size", "why_tests_cant": "the reset happens only after history dependent many factors", "anchors": ["include/tudocomp/compressors/LZ78Compressor.hpp: compress (reset_dict), decompress"]}
{"id": "C12", "title": "LZW is lossless", "statement": "lzw decompresses to the original input with every universal coder and every trie, for every dict_size.", "quantifier": "every byte string, coder, trie and dict_size", "why_tests_cant": "includes the KwKwK case and dictionary resets, which depend on the whole history", "anchors": ["include/tudocomp/compressors/LZWCompressor.hpp", "include/tudocomp/compressors/lzw/LZWDecoding.hpp: decode_step, lzw_decode"]}
{"id": "C13", "title": "LZ78 tries behave as a map", "statement": "For any history of add_rootnode/find_or_insert calls, a trie returns the id inserted earlier for (parent, character) if there is one and otherwise allocates the next unused id; all trie implementations give the same answers.", "quantifier": "every operation history and every trie (binary, binary_sorted, ternary, hash, hash_plus, exthash, ...)", "why_tests_cant": "the structures are pointer/hash based and each reorganises itself (sorted sibling lists, search trees, hash growth) depending on the history", "anchors": ["include/tudocomp/compressors/lz78/BinaryTrie.hpp", "include/tudocomp/compressors/lz78/BinarySortedTrie.hpp", "include/tudocomp/compressors/lz78/TernaryTrie.hpp", "include/tudocomp/compressors/lz78/HashTrie.hpp", "include/tudocomp/compressors/lz78/ExtHashTrie.hpp", "include/tudocomp/compressors/lz78/HashTriePlus.hpp", "include/tudocomp/compressors/lz78/squeeze_node.hpp"]}
{"id": "C14", "title": "LZSS sliding window is lossless", "statement": "lzss (sliding window) decompresses to the original input for every window size and threshold and every universal coder.", "quantifier": "every byte string, window, threshold, coder", "why_tests_cant": "window refills, end of input and overlapping matches interact with the lengths modulo the window", "anchors": ["include/tudocomp/compressors/LZSSSlidingWindowCompressor.hpp", "include/tudocomp/compressors/lzss/LZSSCoding.hpp", "include/tudocomp/compressors/lzss/LZSSDecodeBackBuffer.hpp"]}
{"id": "C15", "title": "LZSS factor coding is lossless", "statement": "Given any text and any sorted, non-overlapping list of back-references that are correct for that text, encode_text followed by decode_text reproduces the text with every universal coder.", "quantifier": "every text, every valid factor list (including self-overlapping references), every coder", "why_tests_cant": "factorisations are unbounded and references may overlap their own target", "anchors": ["include/tudocomp/compressors/lzss/LZSSCoding.hpp: encode_text, decode_text", "include/tudocomp/compressors/lzss/LZSSDecodeBackBuffer.hpp: decode_literal, decode_factor", "include/tudocomp/compressors/lzss/LZSSFactors.hpp"]}
{"id": "C16", "title": "LZSS over LCP array emits only valid factors", "statement": "For every text with correct suffix array, inverse and LCP array, the factors produced by lzss_lcp are sorted, non-overlapping, have length >= threshold, point strictly backwards and copy the right characters, so the compressor is lossless.", "quantifier": "every text and threshold >= 1", "why_tests_cant": "depends on global suffix-array order of arbitrary texts", "anchors": ["include/tudocomp/compressors/LZSSLCPCompressor.hpp: compress"]}
{"id": "C17", "title": "BWT is invertible", "statement": "decode_bwt applied to the Burrows-Wheeler transform of a null-terminated text returns the text.", "quantifier": "every text without inner null byte (any other byte values)", "why_tests_cant": "inversion relies on a global sorting argument over all suffixes", "anchors": ["include/tudocomp/ds/bwt.hpp: bwt, compute_LF, decode_bwt", "include/tudocomp/compressors/BWTCompressor.hpp"]}
{"id": "C18", "title": "Escaping is invertible", "statement": "For every set of forbidden bytes and null-termination flag, unrestricting a restricted buffer returns the original bytes.", "quantifier": "every byte string and every restriction", "why_tests_cant": "the escape byte and the replacement bytes may occur in the data and depend on the set of forbidden bytes", "anchors": ["include/tudocomp/io/EscapeMap.hpp", "include/tudocomp/io/RestrictedBuffer.hpp: restrict, unrestrict", "include/tudocomp/io/RestrictedIOStream.hpp"]}
{"id": "C19", "title": "Restricted text satisfies the restriction", "statement": "A restricted input contains none of the forbidden bytes, except the single terminating 0 if null termination was requested, and its length is the original length plus one per escaped byte plus the terminator.", "quantifier": "every byte string and every restriction", "why_tests_cant": "must hold for each position of unbounded inputs; algorithms rely on it for memory safety (sentinel search)", "anchors": ["include/tudocomp/io/EscapeMap.hpp", "include/tudocomp/io/RestrictedBuffer.hpp: escape_with_iters, extra_size, init"]}
{"id": "C20", "title": "Streaming and buffered (un)escaping agree", "statement": "Reading a restricted input through InputStream yields the same bytes as through InputView, and writing through a restricted OutputStream in any chunking yields the unescaped bytes.", "quantifier": "every byte string, every restriction, every chunking of writes", "why_tests_cant": "the stream versions carry state (saw_escape, saw_null) across buffer boundaries", "anchors": ["include/tudocomp/io/RestrictedIOStream.hpp: RestrictedIStreamBuf::pull_escape, RestrictedOStreamBuf::push_unescape"]}
{"id": "C21", "title": "Combining restrictions", "statement": "Restrictions combine with | as set union and disjunction: associative, commutative, idempotent, with the empty restriction as unit, and the byte set stays sorted and duplicate free so == is set equality.", "quantifier": "all restrictions", "why_tests_cant": "all subsets of bytes (2^256) times flags", "anchors": ["include/tudocomp/io/InputRestrictions.hpp: InputRestrictions::sort_and_dedup, operator|, operator=="]}
{"id": "C22", "title": "Changing restrictions equals restricting anew", "statement": "Reusing a buffer under another restriction gives the same bytes as restricting the original input directly with the new restriction.", "quantifier": "every byte string and pair of restrictions", "why_tests_cant": "composition of the in-place inverse with a new escape map over arbitrary data", "anchors": ["include/tudocomp/io/RestrictedBuffer.hpp: change_restrictions, unrestrict, restrict", "include/tudocomp/io/InputAlloc.hpp"]}
{"id": "C23", "title": "Slicing inputs composes", "statement": "Slicing an Input twice equals slicing once with the added offset, and as_view/as_stream of a slice deliver exactly the bytes [from,to) of the source whatever its kind.", "quantifier": "every source, every from/to, any nesting depth and any interleaving of earlier slices (buffer cache)", "why_tests_cant": "nested slices and the shared buffer cache depend on the history of earlier accesses", "anchors": ["include/tudocomp/io/Input.hpp: Input(Input,from,to), slice", "include/tudocomp/io/InputSource.hpp", "include/tudocomp/io/InputAlloc.hpp: find_or_construct, create_stream"]}
{"id": "C24", "title": "Chaining compressors is lossless", "statement": "chain(A,B) decompresses to the input whenever A and B are lossless, including when B imposes input restrictions on A's output.", "quantifier": "every pair of lossless compressors and every input", "why_tests_cant": "quantifies over all compressors", "anchors": ["include/tudocomp_driver/ChainCompressor.hpp", "include/tudocomp/io/InputRestrictions.hpp"]}
{"id": "C25", "title": "Huffman coder is lossless", "statement": "Literals encoded with the huff coder decode to the same literals given the transmitted table.", "quantifier": "every multiset of literals and every literal sequence over it", "why_tests_cant": "code lengths come from a heap-built tree over arbitrary frequencies; canonical code assignment must be prefix free for every length profile", "anchors": ["include/tudocomp/coders/HuffmanCoder.hpp: gen_codelengths, gen_numl, gen_first_codes, gen_prefix_lengths, gen_codewords, huffman_encode, huffman_decode"]}
{"id": "C26", "title": "Huffman code lengths form a complete prefix code", "statement": "For every frequency vector with at least two symbols, the computed code lengths satisfy Kraft's equality.", "quantifier": "every frequency vector", "why_tests_cant": "depends on a heap-based algorithm over arbitrary frequencies", "anchors": ["include/tudocomp/coders/HuffmanCoder.hpp: gen_codelengths"]}
{"id": "C27", "title": "Static low entropy coder is lossless", "statement": "Literals and ranged values encoded with sle decode to the same sequence for every k-mer length k >= 1.", "quantifier": "every literal sequence interleaved with ranged values, every k", "why_tests_cant": "k-mer buffering carries state between calls and must be flushed before other tokens", "anchors": ["include/tudocomp/coders/SLECoder.hpp"]}
{"id": "C28", "title": "Fixed width integers are arithmetic modulo 2^N", "statement": "uint_t<N> behaves as unsigned arithmetic modulo 2^N for +,-,*,shifts, comparison and conversion.", "quantifier": "every width N in 1..64 and every pair of values", "why_tests_cant": "2^128 operand pairs per width", "anchors": ["include/tudocomp/ds/uint_t.hpp"]}
{"id": "C29", "title": "Rank structure is exact", "statement": "rank1(i)/rank0(i) count the ones/zeros in positions 0..i for every bit vector.", "quantifier": "every bit vector and every index", "why_tests_cant": "three-level counts with block boundaries; unbounded length", "anchors": ["include/tudocomp/ds/Rank.hpp", "include/tudocomp/ds/rank_64bit.hpp"]}
{"id": "C30", "title": "Select structure is exact", "statement": "select1(k)/select0(k) return the position of the k-th one/zero if it exists and otherwise a value that is not a valid position.", "quantifier": "every bit vector and every k", "why_tests_cant": "unbounded bit vectors; supblock/block boundaries; trailing padding bits", "anchors": ["include/tudocomp/ds/Select.hpp", "include/tudocomp/ds/select_64bit.hpp"]}
{"id": "C31", "title": "Max-heap keeps its order under every operation history", "statement": "After any sequence of insert, remove and decrease_key, the top element of ArrayMaxHeap has a maximal key and contains() is exact.", "quantifier": "every operation history and key array", "why_tests_cant": "the array layout depends on the entire history", "anchors": ["include/tudocomp/ds/ArrayMaxHeap.hpp: insert, remove, decrease_key, get_max, contains"]}
{"id": "C32", "title": "Hash map refines a finite map", "statement": "Any history of HashMap::insert calls returns, and answers (value stored under the key, whether it was inserted) like a finite map in which the first insertion of a key wins, through all growth; entries() is the number of distinct keys.", "quantifier": "every operation history, every hash function, prober, size manager and load factor", "why_tests_cant": "probe sequences and growth depend on history and hash values", "anchors": ["include/tudocomp/util/Hash.hpp: HashMap::insert, HashMap::reserve, SizeManagerPow2, SizeManagerNoob, SizeManagerDirect, LinearProber, QuadraticProber"]}
{"id": "C33", "title": "Text index arrays are exact", "statement": "For a null-terminated text without inner null byte, TextDS delivers ISA as the inverse of SA, Phi as the lexicographic predecessor, LCP/PLCP as the exact longest common prefix lengths and max_lcp() as their maximum, in every compress mode (bit packing never loses information).", "quantifier": "every text, every packing mode", "why_tests_cant": "arrays depend on all suffix comparisons of unbounded texts; packing widths depend on the content", "anchors": ["include/tudocomp/ds/ISAFromSA.hpp", "include/tudocomp/ds/PhiFromSA.hpp", "include/tudocomp/ds/PLCPFromPhi.hpp", "include/tudocomp/ds/LCPFromPLCP.hpp", "include/tudocomp/ds/TextDS.hpp: require"]}
{"id": "C34", "title": "Literal iterator announces exactly the literals that get encoded", "statement": "lzss::TextLiterals yields exactly the characters not covered by any factor, in order with positions, and these are exactly the literals encode_text passes to the coder afterwards.", "quantifier": "every text and every sorted non-overlapping factor list", "why_tests_cant": "unbounded texts and factor lists, adjacent and empty factors", "anchors": ["include/tudocomp/compressors/lzss/LZSSLiterals.hpp", "include/tudocomp/compressors/lzss/LZSSCoding.hpp: encode_text"]}
{"id": "C35", "title": "The driver can decompress what it compressed", "statement": "A file written by the command line driver with --algorithm ID is decompressed by the driver without naming the algorithm: the header selects the same algorithm, is stripped exactly, and the original bytes come back, from a file or from standard input; with --raw the same holds without header.", "quantifier": "every algorithm id, every lossless compressor (including nested chains), every input", "why_tests_cant": "ids, compressors and inputs are unbounded; the compressed data may contain any bytes, also the header delimiter", "anchors": ["src/tudocomp_driver/tudocomp_driver.cpp: main", "include/tudocomp_driver/ChainCompressor.hpp", "include/tudocomp/io/Input.hpp"]}
{"id": "C36", "title": "Huffman code is optimal", "statement": "For every frequency vector of at least two symbols, no prefix free code (one word per symbol) encodes a text with these frequencies in fewer bits than the code lengths the huff coder computes.", "quantifier": "every frequency vector and every prefix free code", "why_tests_cant": "quantifies over all codes; depends on the heap always delivering the two least weights", "anchors": ["include/tudocomp/coders/HuffmanCoder.hpp: gen_codelengths"]}
{"id": "C37", "title": "Packed integer vectors behave like vectors of w-bit integers", "statement": "Any history of push_back, pop_back, assignment, resize, width changes, insert, erase, clear and assign on a BitPackingVector (IntVector over uint_t<N> or dynamic_t) leaves exactly the elements, size and width that the same history leaves on a list of integers modulo 2^width, touches no memory outside of ceil(size*width/64) words, and operator== and iterators agree with list equality and positions.", "quantifier": "every operation history, every width from 1 to 64, fixed or dynamic", "why_tests_cant": "elements straddle words depending on the width and the whole history; stale bits matter only after particular histories", "anchors": ["include/tudocomp/ds/BitPackingVector.hpp", "include/tudocomp/ds/IntPtr.hpp", "include/tudocomp/ds/IntRepr.hpp", "include/tudocomp/ds/IntVector.hpp"]}
{"id": "C38", "title": "Every decode buffer of lcpcomp resolves every acyclic factorization", "statement": "Sorted, non-overlapping factors that copy the right characters and contain no cyclic reference are decoded to exactly the text by each decoder of lcpcomp (ScanDec, CompactDec, DecodeForwardQueueListBuffer, MultimapBuffer), although references may point forwards and into other factors, with every number of lazy scans and every coder.", "quantifier": "every text, every such factorization, every decoder, option and coder", "why_tests_cant": "the order in which characters become available depends on the whole reference graph", "anchors": ["include/tudocomp/compressors/LCPCompressor.hpp: decode_text_internal", "include/tudocomp/compressors/lcpcomp/decompress/ScanDec.hpp", "include/tudocomp/compressors/lcpcomp/decompress/CompactDec.hpp", "include/tudocomp/compressors/lcpcomp/decompress/DecodeQueueListBuffer.hpp", "include/tudocomp/compressors/lcpcomp/decompress/MultiMapBuffer.hpp"]}
{"id": "C39", "title": "lcpcomp replaces a longest remaining copy at every step", "statement": "ArraysComp, MaxLCPStrategy, MaxHeapStrategy and BoostHeap each repeatedly replace a longest remaining common prefix with the lexicographically preceding suffix until none of length threshold is left, and never replace a character twice; PLCPPeaksStrategy yields sorted, disjoint factors of maximal length that are at least threshold long.", "quantifier": "every text and threshold, every packing of the arrays", "why_tests_cant": "each step depends on all earlier replacements through clipped LCP values and the state of the priority queue", "anchors": ["include/tudocomp/compressors/lcpcomp/compress/ArraysComp.hpp", "include/tudocomp/compressors/lcpcomp/compress/MaxLCPStrategy.hpp", "include/tudocomp/compressors/lcpcomp/MaxLCPSuffixList.hpp", "include/tudocomp/compressors/lcpcomp/compress/BoostHeap.hpp", "include/tudocomp/compressors/lcpcomp/compress/MaxHeapStrategy.hpp", "include/tudocomp/compressors/lcpcomp/compress/PLCPPeaksStrategy.hpp"]}
{"id": "C40", "title": "lcpcomp is lossless", "statement": "decompress(compress(text)) = text for lcpcomp with every factorization strategy, decoder and coder, with and without flatten, every packing mode of the text data structures and every threshold.", "quantifier": "every text, strategy, decoder, coder, packing mode, threshold", "why_tests_cant": "references cross the whole text in both directions; correctness depends on global acyclicity", "anchors": ["include/tudocomp/compressors/LCPCompressor.hpp: compress, decompress"]}
{"id": "C41", "title": "Flattening keeps the meaning of a factorization", "statement": "FactorBuffer::flatten terminates on every acyclic factorization, keeps all targets and lengths, keeps it decodable to the same text, and afterwards no source range lies completely inside one factor.", "quantifier": "every text and every sorted acyclic factorization", "why_tests_cant": "chains of references have unbounded depth; sources are rewritten while being followed", "anchors": ["include/tudocomp/compressors/lzss/LZSSFactors.hpp: FactorBuffer::flatten, sort"]}
{"id": "C42", "title": "The arithmetic coder is lossless for literals", "statement": "Compressing a text with the encode compressor over the arithmetic coder and decompressing it returns the text: every symbol lies in the interval the decoder finds, intervals never become empty, and both sides start a new 64 bit code at the same symbol.", "quantifier": "every text, every distribution of the bytes", "why_tests_cant": "the interval after each literal depends on all literals before it and on all frequencies; code boundaries come at data dependent positions", "anchors": ["include/tudocomp/coders/ArithmeticCoder.hpp", "include/tudocomp/compressors/LiteralEncoder.hpp"]}
{"id": "C43", "title": "Re-Pair is lossless", "statement": "decompress(compress(text)) = text for the repair compressor, with every coder it is registered with and every value of max_rules.", "quantifier": "every text, every coder, every max_rules", "why_tests_cant": "digrams overlap, and every replacement rewires the list of live positions that all later rounds and the output walk over", "anchors": ["include/tudocomp/compressors/RePairCompressor.hpp: compress, decompress"]}
{"id": "C44", "title": "Re-Pair replaces a most frequent digram in every round", "statement": "Each rule of the grammar that repair writes is a most frequent digram (occurring at least twice) of the sequence at that moment, replaced from left to right; it stops exactly when max_rules rules exist or no digram occurs twice, and rules and symbols together never exceed the length of the text.", "quantifier": "every non-empty text, every max_rules", "why_tests_cant": "the frequencies in a round depend on all replacements before", "anchors": ["include/tudocomp/compressors/RePairCompressor.hpp: compress"]}
{"id": "C45", "title": "LZ78U is lossless", "statement": "decompress(compress(text)) = text for the lz78u compressor, with the streaming and the buffering strategy, every pair of coders for references and strings and every threshold.", "quantifier": "every null terminated text, threshold, strategy, coder pair", "why_tests_cant": "factor numbers are kept per suffix tree node in fields of a width guessed from the text length; labels are factorized recursively and cut", "anchors": ["include/tudocomp/compressors/LZ78UCompressor.hpp: compress, decompress, lz78u::Decompressor", "include/tudocomp/compressors/lz78u/StreamingStrategy.hpp", "include/tudocomp/compressors/lz78u/BufferingStrategy.hpp", "include/tudocomp/compressors/lz78u/SuffixTree.hpp"]}
{"id": "C46", "title": "The sparse inverse suffix array is exact and bounded", "statement": "SparseISA with option t answers isa[i] = the rank of suffix i, for every i, in at most t steps of its loop, and stores at most 2n/t short cuts.", "quantifier": "every suffix array (every permutation), every t, every query", "why_tests_cant": "short cuts are placed along the cycles of the permutation, whose number and lengths are arbitrary; a misplaced one makes a query run forever", "anchors": ["include/tudocomp/ds/SparseISA.hpp: SparseISA, operator[]"]}
{"id": "C47", "title": "The succinct LCP structures are exact", "statement": "CompressedLCP and LCPSada answer for every rank the length of the longest common prefix with the preceding suffix (0 for rank 0), and LCPForwardIterator reads the PLCP entry of its position under every sequence of advance and read calls.", "quantifier": "every text, rank, packing mode; every call sequence of the iterator", "why_tests_cant": "entries are differences in one unary bit string, so an error at one position shifts all later answers", "anchors": ["include/tudocomp/ds/CompressedLCP.hpp", "include/tudocomp/ds/LCPSada.hpp: LCPSada, LCPForwardIterator, construct_plcp_bitvector, phi_algorithm"]}
{"id": "C48", "title": "The generators deliver the words they are named after", "statement": "fib(n) returns the n-th Fibonacci word, thue_morse(n) the n-th Thue-Morse word (documented as 2^n characters), run_rich(n) the n-th run-rich string of Matsubara et al., and random returns length characters within [min, max] for every pair of bounds.", "quantifier": "every n / length, every pair of byte bounds, every sequence of random values", "why_tests_cant": "infinite families; the loops carry the last two or four words", "anchors": ["include/tudocomp/generators/FibonacciGenerator.hpp", "include/tudocomp/generators/ThueMorseGenerator.hpp", "include/tudocomp/generators/RunRichGenerator.hpp", "include/tudocomp/generators/RandomUniformGenerator.hpp"]}
{"id": "C49", "title": "Algorithm strings mean what the grammar says", "statement": "Every algorithm string derived from the grammar (identifiers, quoted strings, numbers, keyword and positional arguments, trailing commas, ':' chains, arbitrary whitespace) is parsed to the value it denotes; what is accepted is derivable and consumed completely; parsing ends on every byte string; and printing a value and parsing it returns the value.", "quantifier": "every byte string, every value", "why_tests_cant": "the grammar is recursive; every function of the parser skips whitespace on its own and leaves the cursor at a different place", "anchors": ["include/tudocomp/util/algorithm_parser/AlgorithmAST.hpp: Parser", "include/tudocomp/util/algorithm_parser/ASTDef.hpp: Value::to_string, Arg::to_string", "include/tudocomp/Registry.hpp: parse_algorithm_id"]}
{"id": "C50", "title": "Options select the algorithm they name", "statement": "An algorithm string selects exactly the registered class whose static options it names (positionally, by keyword, or by default), every declared option can then be read and has the value given for it (its default otherwise), independently of keyword order; unknown, missing, surplus, duplicate and malformed options are rejected; evaluation ends on every string; and create_algo<T>(options) evaluates options the way the registry does.", "quantifier": "every set of declarations built by registration, every algorithm string and value, every call order", "why_tests_cant": "values nest to any depth and defaults are evaluated recursively; static options decide between template instances and must not be influenced by dynamic ones", "anchors": ["include/tudocomp/util/algorithm_parser/AlgorithmStringParser.hpp: eval, pattern_eval, cl_eval", "include/tudocomp/Meta.hpp: option, templated, gather_types, static_args_ast", "include/tudocomp/OptionValue.hpp", "include/tudocomp/Registry.hpp: register_algorithm, select, parse_algorithm_id", "include/tudocomp/CreateAlgorithm.hpp: Builder, create_algo", "include/tudocomp/Env.hpp: option, env_for_option"]}
{"id": "C51", "title": "Longest-first substitution is lossless (encoder and suffix array strategy)", "statement": "lfs with the encode strategy reproduces every null-terminated text, for every length coder and literal coder and every set of rules that are equal to what they replace; with the strategy esa the rules are repeated substrings of length at least 2, listed by decreasing length, each used at least twice, and their occurrences do not overlap.", "quantifier": "every null-terminated text below 4 GiB, every packing of the arrays, every coder pair", "why_tests_cant": "occurrences of all earlier rules restrict later ones, and a wrong length anywhere shifts the whole list of lengths, which is coded by differences", "anchors": ["include/tudocomp/compressors/lfs/LFSCompressor.hpp: compress, decompress", "include/tudocomp/compressors/lfs/EncodeStrategy.hpp: encode, decode", "include/tudocomp/compressors/lfs/ESAStrategy.hpp: compute_rules, select_starting_positions"]}
{"id": "C52", "title": "Longest-first substitution is lossless (suffix tree strategies)", "statement": "lfs with the strategies sim_st, bst and st reproduces every text for every value of min_lrf; the rules are substrings of length at least min_lrf, listed by decreasing length, each used at least twice, and their occurrences do not overlap.", "quantifier": "every text below 4 GiB, every min_lrf, every coder pair, every suffix tree of the text", "why_tests_cant": "positions move up the tree as nodes are visited and nodes are put back into bins of shorter lengths, so each visit depends on all visits before", "anchors": ["include/tudocomp/compressors/lfs/SimSTStrategy.hpp: compute_rules", "include/tudocomp/compressors/lfs/BSTStrategy.hpp: compute_rules", "include/tudocomp/compressors/lfs/STStrategy.hpp: compute_rules"]}
{"id": "C53", "title": "Two-layer longest-first substitution is lossless", "statement": "decompress(compress(text)) = text for lfs2 (with and without exact) and lfs2bst, for every min_lrf, every pair of coders and every object, new or used before; rules refer only to later rules, lie where they say, and do not overlap.", "quantifier": "every null-terminated text below 4 GiB, every min_lrf, coder pair, suffix tree; every sequence of compress calls", "why_tests_cant": "occurrences inside earlier rules are rewritten inside the representatives of these rules, which must stay disjoint; the dictionary is written backwards and lengths are coded by differences", "anchors": ["include/tudocomp/compressors/lfs/LFS2Compressor.hpp: compress, decompress", "include/tudocomp/compressors/lfs/LFS2BSTCompressor.hpp: compress, decompress"]}
{"id": "C54", "title": "Suffix trees built online", "statement": "A SuffixTree object to which strings are appended, in whatever pieces, is the compact tree of all substrings of the text so far: its paths spell exactly the substrings, edges of siblings begin with different characters, inner nodes branch, leaves carry the numbers of suffixes; it is the suffix tree (every suffix has a leaf) if the last character is unique. A BinarySuffixTree of a text is the same tree, and its construction never leaves its arrays.", "quantifier": "every sequence of appends, every text, every iteration order of the hash maps", "why_tests_cant": "suffix links, the active point and open edges must be right after every character of every text; a wrong link shows only for special repetitions", "anchors": ["include/tudocomp/ds/SuffixTree.hpp: add_char, append_string, append_input", "include/tudocomp/ds/BinarySuffixTree.hpp: compute, add_char, reserve, resize"]}
{"id": "C55", "title": "Edit-sensitive parsing is lossless", "statement": "decompress(compress(text)) = text for esp with the plain grammar coder, for every text and whatever order the hash map of a round is traversed in; compression ends.", "quantifier": "every text of at most 2^32 bytes, every traversal order of the maps", "why_tests_cant": "blocks are chosen by several rounds of alphabet reduction and local repair; a block of the wrong length or a rule stored at the wrong number shows only for special repetitions", "anchors": ["include/tudocomp/compressors/EspCompressor.hpp", "include/tudocomp/compressors/esp/{EspContextImpl,RoundContextImpl,meta_blocks,landmarks,esp_math,BlockAdjust,GrammarRules,SLP,PlainSLPCoder}.hpp"]}
{"id": "C56", "title": "The grammar of edit-sensitive parsing is small and flat", "statement": "For a text of n >= 1 bytes esp computes a grammar with fewer than n rules, no two with the same right-hand side, each using only bytes and earlier rules, deriving the text with at most 2 log2 n rules nested in each other (so that decompression recurses no deeper); the file of the plain coder has six bits and 2 r + 1 symbols of minimal width for r rules.", "quantifier": "every text of at most 2^32 bytes, every traversal order of the maps", "why_tests_cant": "depth and number of rules are global properties of all rounds", "anchors": ["include/tudocomp/compressors/esp/EspContextImpl.hpp: generate_grammar", "include/tudocomp/compressors/esp/SLP.hpp: derive_text", "include/tudocomp/compressors/esp/PlainSLPCoder.hpp: encode"]}
{"id": "C57", "title": "The sorted grammar coder of ESP is lossless", "statement": "decompress(compress(text)) = text for esp with slp_coder = sorted, for every coder of right-hand sides that gives back the lists it codes: the rules are renumbered so that their left symbols ascend, and the renumbered grammar derives the same text.", "quantifier": "every text of at most 2^32 bytes, every traversal order of the maps, every faithful coder of right-hand sides", "why_tests_cant": "the new numbers are given along a tree of rules linked by left symbols, of any shape", "anchors": ["include/tudocomp/compressors/esp/SortedSLPCoder.hpp: encode, decode", "include/tudocomp/compressors/esp/SLPDepSort.hpp"]}
{"id": "C58", "title": "The codings of right-hand sides are faithful", "statement": "The plain, difference and range codings (d_coding options of the sorted grammar coder) code every list of right-hand sides and decode it to the same list; hence esp with each of them is lossless.", "quantifier": "every list of symbols, every threshold, wt and zero_min option", "why_tests_cant": "unary or binary form is chosen by counts over the whole list; sign bits are present only if some difference is negative", "anchors": ["include/tudocomp/compressors/esp/DRCoder.hpp: DPlain, DDiff, DRangeFit, encode_unary_diff, decode_unary_diff"]}
{"id": "C59", "title": "Right-hand sides coded as monotone subsequences come back", "statement": "decompress(compress(text)) = text for esp with slp_coder = sorted and d_coding = mono_subseq, with the greedy and the optimal strategy and with plain names or wavelet trees for the names of subsequences; the wavelet tree of every list of numbers below 2^30 is decoded to the list and leaves the rest of the stream alone.", "quantifier": "every text of at most 2^32 bytes (2^30 with wavelet trees), every traversal order of the maps, every list", "why_tests_cant": "the list is rebuilt from a sorted copy, two permutations of subsequence names and directions; wavelet trees are written level by level and read by nested iterators whose sizes are found while reading", "anchors": ["include/tudocomp/compressors/esp/DRCoder.hpp: DMonotonSubseq, DWaveletTree", "include/tudocomp/compressors/esp/wt_pc.hpp", "include/tudocomp/compressors/esp/MonotoneSubsequences.hpp: recover_D_from_encoding, create_dsigma_from_dpi_and_sorted_indices", "include/tudocomp/compressors/esp/SubseqStrategy.hpp"]}
{"id": "C60", "title": "Permutations are split into monotone subsequences", "statement": "SubSeqGreedy and SubSeqOptimal assign every entry of every non-empty permutation to exactly one subsequence, numbered without gaps, each strictly ascending or strictly descending as its bit says; SubSeqOptimal takes in every round a longest monotone subsequence of the remaining entries.", "quantifier": "every non-empty permutation", "why_tests_cant": "layers, free list and result share two arrays that are rewritten in every round", "anchors": ["include/tudocomp/compressors/esp/SubseqStrategy.hpp: SubSeqGreedy, SubSeqOptimal", "include/tudocomp/compressors/esp/MonotoneSubsequences.hpp: class L, create_dpi_and_b_from_sorted_indices"]}
{"id": "C61", "title": "Right-hand sides coded with a Huffman code come back", "statement": "decompress(compress(text)) = text for esp with slp_coder = sorted and d_coding = huffman, or d_coding = mono_subseq with Huffman coded names of subsequences; every list of numbers is decoded to itself and leaves the rest of the stream alone, and behind the table the code takes no more bits than any other prefix-free code of the numbers.", "quantifier": "every text of at most 2^32 bytes, every list of fewer than 2^44 numbers, every conforming implementation of the heap and sort algorithms", "why_tests_cant": "code lengths come from a heap whose order among equal counts is unspecified; the decoder rebuilds codewords from counts of lengths only", "anchors": ["include/tudocomp/compressors/esp/HuffmanCoder.hpp", "include/tudocomp/compressors/esp/DRCoder.hpp: DHuffman"]}
{"id": "C62", "title": "The compact sparse hash table is a map, and the tries built on it are lossless", "statement": "Every history of index(key,width)=value, insert and search on compact_hash answers like a map from keys to values: a key that was written reads back its last value through search and index, other keys are not affected, growing the table (more entries or wider keys) keeps all entries, and no access leaves the table's memory. LZ78 and LZW with the trie 'compact_sparse_hash' therefore reproduce every text.", "quantifier": "All histories of calls with non-decreasing key widths, all keys and values, all initial capacities; for the tries all texts and coders", "why_tests_cant": "Group boundaries are encoded in two bit vectors, entries wrap around the end of the table and move between 64-slot buckets; which of the shift paths is taken depends on the whole history of hash collisions, a test sees only few of these configurations", "anchors": ["include/tudocomp/util/compact_sparse_hash.hpp: compact_hash::insert, index, search, shift_insert_sparse_handler, sparse_shift, search_existing_group, grow_if_needed", "include/tudocomp/compressors/lz78/CompactSparseHashTrie.hpp: CompactSparseHashTrie::find_or_insert, add_rootnode", "include/tudocomp/util.hpp: isqrt, zero_or_next_power_of_two"]}
{"id": "C63", "title": "LZ78 and LZW with the rolling hash trie reproduce every text", "statement": "decompress(compress(text)) = text for lz78 and lzw with the trie 'rolling' and each of the hash functions zbackup (the default), wordpack and rk (Karp-Rabin, whatever keys were drawn): the trie identifies a node by the hash value of its path alone, so different paths that occur together must have different values.", "quantifier": "every text, every coder", "why_tests_cant": "whether two paths collide depends on all the factors of the text; random tests practically never meet a collision of 64-bit values, only an algebraic argument finds one", "anchors": ["include/tudocomp/util/Hash.hpp: ZBackupRollingHash, WordpackRollingHash", "include/tudocomp/compressors/lz78/RollingTrie.hpp: find_or_insert, add_rootnode, get_rootnode", "include/tudocomp/compressors/LZ78Compressor.hpp", "include/tudocomp/compressors/LZWCompressor.hpp"]}
{"id": "C64", "title": "The hash tries of LZ78 and LZW on their real hash tables", "statement": "lz78 and lzw with the tries hash, hash_plus, rolling and rolling_plus on the growing hash table: every compression returns, and it writes the same bytes as with a faultless dictionary, so that decompress(compress(text)) = text whenever that holds for a faultless dictionary.", "quantifier": "every text, hash function, prober, size manager, load factor, reserved size and coder", "why_tests_cant": "growth and change-over depend on the estimated number of factors, so that faults need a text of exactly the right length and number of factors", "anchors": ["include/tudocomp/compressors/lz78/HashTrie.hpp", "include/tudocomp/compressors/lz78/HashTriePlus.hpp: find_or_insert, add_rootnode", "include/tudocomp/compressors/lz78/RollingTrie.hpp", "include/tudocomp/compressors/lz78/RollingTriePlus.hpp: find_or_insert, add_rootnode", "include/tudocomp/util/Hash.hpp: HashMap::incorporate, reserve, insert, SizeManagerDirect, SizeManagerNoob"]}
{"id": "C65", "title": "divsufsort sorts the suffixes of every text", "statement": "For every text and every content of the buffer, divsufsort(text, buffer, n) leaves in the buffer the starting positions of all suffixes in lexicographic order, in cells with one sign bit more than the length needs, and never reads or writes outside the text, the buffer or its own stacks.", "quantifier": "every text, every content of the buffer, every cell width up to 64 that holds the length and a sign", "why_tests_cant": "bucket boundaries come from counts over the whole text; substrings are sorted by an introsort whose rounds depend on medians and on a depth limit; each suffix is written exactly once into a cell found by two scans in opposite directions, and signs of the entries steer every phase", "anchors": ["include/tudocomp/util/divsufsort.hpp: sort_typeBstar, construct_SA, divsufsort_run, divsufsort", "include/tudocomp/util/divsufsort/divsufsort_ssort.hpp: sssort, ss_mintrosort, ss_heapsort, ss_partition, ss_pivot, ss_insertionsort, ss_compare", "include/tudocomp/util/divsufsort/divsufsort_private.hpp: BUCKET_A, BUCKET_B, BUCKET_BSTAR, STACK_PUSH", "include/tudocomp/util/divsufsort/divsufsort_bufwrapper.hpp", "include/tudocomp/ds/SADivSufSort.hpp"]}
{"id": "C66", "title": "LZ78 with the double-array trie reproduces every text", "statement": "decompress(compress(text)) = text for lz78 with the trie 'cedar': looking up the child of a node in the double array gives the number of the phrase that extends the phrase of this node by the character, for all phrases seen so far.", "quantifier": "every text, every coder", "why_tests_cant": "nodes of the double array move when cells conflict, so what a cell means depends on all insertions before; which insertions conflict depends on the free lists of 256-cell blocks", "anchors": ["include/tudocomp/compressors/lz78/CedarTrie.hpp: find_or_insert, add_rootnode, get_rootnode", "include/tudocomp/compressors/lz78/cedar.hpp: update, traverse, _resolve, _follow, _find_place, _pop_enode, _push_enode, _push_sibling", "include/tudocomp/compressors/LZ78Compressor.hpp"]}
{"id": "C67", "title": "The rule maps of ESP are maps, and the output does not depend on them", "statement": "The maps std_unordered_map, hash_map and dynamic_size of either answer every history of access(key, updater) like a map from pairs of numbers to numbers with value 0 at first, and traversing them gives every accessed key once, with its last value. esp computes the same grammar and writes the same file whichever map is used, and the file is decompressed to the text.", "quantifier": "every history of accesses with 64-bit keys and values (the reserved key excluded), every hash function and traversal order; every text of at most 2^32 bytes", "why_tests_cant": "which cells collide, when the table grows and when numbers outgrow their width depends on the whole history; a key that equals the marker of empty cells needs two numbers with all bits set", "anchors": ["include/tudocomp/compressors/esp/HashMap.h: HashMap, emplace_impl, reserve, rehash", "include/tudocomp/compressors/esp/HashMapIPD.hpp", "include/tudocomp/compressors/esp/StdUnorderedMapIPD.hpp", "include/tudocomp/compressors/esp/DynamicSizeIPD.hpp: access, resize, can_fit_key", "include/tudocomp/compressors/esp/GrammarRules.hpp: add", "include/tudocomp/compressors/esp/EspContextImpl.hpp: generate_grammar"]}
{"id": "C68", "title": "Statistics phases report what the program did", "statement": "The report of a program is the tree of its phases: each phase with its title, the bytes it allocated minus those it released, their peak, the amount allocated in the phase around it when it began, the values it logged, its sub-phases in their order, and start and end times nested as the phases are. Allocations made by the bookkeeping itself or while tracking is paused are not counted. Splitting a phase is ending it and beginning the next one.", "quantifier": "every program of nested phases, every sequence of allocations, every non-decreasing clock", "why_tests_cant": "peak and offset of every phase depend on the whole history of the phases inside it, and the counters of all enclosing phases must agree at all times", "anchors": ["include/tudocomp_stat/StatPhase.hpp: StatPhase, split, log_stat, to_json, pause_tracking", "include/tudocomp_stat/PhaseData.hpp: PhaseData, to_json, keyval"]}
{"id": "C69", "title": "The report is a JSON text", "statement": "What a JSON value is printed as is a JSON text (RFC 8259) of this value; in particular the printed report of a program is a text of its report.", "quantifier": "every value, every string, every nesting", "why_tests_cant": "strings may hold any bytes and objects any nesting", "anchors": ["include/tudocomp_stat/Json.hpp: TValue, Array, Object, str"]}
{"id": "C70", "title": "The replaced allocator accounts for live blocks", "statement": "malloc, free, realloc and calloc as replaced by tudocomp_stat behave as the C standard says (new blocks are separate and large enough, realloc keeps the contents, calloc gives zeros, failure gives the null pointer), and the bytes reported to the statistics add up to the sizes of the live blocks.", "quantifier": "every sequence of calls with live pointers, every size, every behaviour of the C library", "why_tests_cant": "sizes are stored in hidden headers; overflow and exhausted memory cannot be provoked in a test", "anchors": ["src/tudocomp_stat/malloc.cpp: malloc, free, realloc, calloc"]}
{"id": "C71", "title": "The Karp-Rabin rolling hash is the hash of the window", "statement": "Feeding a string to KarpRabinHash character by character gives the value of the polynomial in 37 with the keys of the characters as coefficients, modulo 2^64; hash() of a container gives the same value; update(out, in) on the value of a window that starts with out gives the value of the window moved by one, so that along a text the value is at all times that of the last n characters.", "quantifier": "every table of keys, every string, every window length", "why_tests_cant": "the keys are drawn at random in each instance; wrap-around modulo 2^64 occurs only for some keys and lengths", "anchors": ["include/tudocomp/util/hash/rabinkarphash.h: KarpRabinHash::eat, update, hash, constructor", "include/tudocomp/util/hash/characterhash.h: maskfnc, CharacterHash"]}
{"id": "C72", "title": "Views behave like the byte strings they show", "statement": "A View (string_ref) shows a part of a memory block. Every history of pop_front, pop_back, clear, remove_prefix, remove_suffix, slice and substr with arguments that fit leaves a view that lies in the block and shows what the same operations make of the string; reading, comparison (equality and lexicographic order by unsigned bytes), starts_with, ends_with, conversion to a container and hashing depend on the shown bytes only and are those of byte strings; at() throws exactly for positions outside.", "quantifier": "every memory block, every view in it, every history, debug and release builds", "why_tests_cant": "positions are pointers and unsigned differences, npos is a legal difference; a view cut wrongly shows valid memory of somebody else, which no test notices", "anchors": ["include/tudocomp/pre_header/GenericViewBase.hpp: GenericViewBase, slice, substr, remove_prefix, remove_suffix, starts_with, ends_with, op_less", "include/tudocomp/util/GenericConstView.hpp: ConstGenericView, std::hash", "include/tudocomp/util/GenericConstU8View.hpp", "include/tudocomp/util/View.hpp"]}
{"id": "C73", "title": "Streams over memory deliver the memory", "statement": "The stream an Input in memory gives out delivers exactly the bytes of the view and then end of file; any history of get, clear, seekg (from the beginning, the current position or the end) and tellg answers as the C++ standard says for a stream over this string, and nothing outside the view is read.", "quantifier": "every memory contents and address, every history of calls, debug and release builds", "why_tests_cant": "positions are pointers and signed offsets added in unsigned arithmetic; reading a byte in front of the buffer is not noticed by a test", "anchors": ["include/tudocomp/io/ViewStream.hpp: ViewStream, membuf, seekpos, seekoff", "include/tudocomp/io/InputStream.hpp"]}
{"id": "C74", "title": "An output collects what its streams are given", "statement": "An Output on a byte vector or a stream appends: whatever streams are opened on it one after the other, and whatever restrictions are put on it in between, the sink holds its old contents followed by the texts written, unescaped, in order. An Output on a file does the same, or, with overwrite, starts with an empty file exactly once.", "quantifier": "every old contents, every sequence of sessions and restrictions, every chunking", "why_tests_cant": "the flag for overwriting is changed by opening a stream and copied when restrictions are added, so that the outcome depends on the whole history", "anchors": ["include/tudocomp/io/Output.hpp: Output, as_stream, unrestrict", "include/tudocomp/io/OutputStream.hpp: OutputStream", "include/tudocomp/io/BackInsertStream.hpp", "include/tudocomp/io/VectorStreamBuffer.hpp: overflow"]}
{"id": "C75", "title": "Every registered compressor, alone or in chains, end to end", "statement": "For every algorithm the registry offers, with all its options, and every chain of them: compressing a string, a file or a stream with the driver (which escapes the forbidden bytes and appends the terminator an algorithm asks for, and writes the algorithm's identifier in front) and decompressing the result from a string, a file or a stream gives back exactly the original bytes.", "quantifier": "every registered algorithm and chain, every option, every text, every kind of source", "why_tests_cant": "each algorithm has its own restrictions and ways to read its input; texts with the bytes 0 and 255 change under escaping before the algorithm sees them, and in a chain each stage sees only the output of the previous one", "anchors": ["etc/registry_config.py", "src/tudocomp_driver/tudocomp_driver.cpp", "include/tudocomp_driver/ChainCompressor.hpp", "include/tudocomp/Meta.hpp: input_restrictions, needs_sentinel_terminator, uses_textds", "include/tudocomp/compressors"]}
{"id": "C76", "title": "TextDS gives out the right structures after every history of calls", "statement": "A TextDS object builds the suffix array, its inverse, LCP, Phi and PLCP on demand, packs them, builds some out of the storage of others and throws away what was not requested. After every sequence of require(flags), require_x, inplace_x and release_x, with every compress mode and every kind of LCP and ISA structure, each structure the object has answers exactly what its name says, the data handed out is right, references stay usable, and after require(flags) the object has the requested structures.", "quantifier": "every text ending with its only null byte, every configuration, every history of calls", "why_tests_cant": "what is present, packed or given away depends on the whole history; a pointer to a suffix array that was thrown away usually still reads the right values", "anchors": ["include/tudocomp/ds/TextDS.hpp: require, require_ds, inplace_ds, release_ds, discard_unneeded", "include/tudocomp/ds/ArrayDS.hpp", "include/tudocomp/ds/CompressMode.hpp", "include/tudocomp/ds/CompressedLCP.hpp", "include/tudocomp/ds/SparseISA.hpp"]}
{"id": "C77", "title": "The choice of text index structures does not change the compressed data", "statement": "lzss_lcp writes the same bytes whatever the options compress, lcp and isa of its TextDS say (and so is lossless with all of them); with the plain LCP array every compressor reads the same suffix array, inverse and LCP array under all settings.", "quantifier": "every text, every threshold and coder, every setting of compress, lcp and isa (with its parameter)", "why_tests_cant": "the structures are implemented in completely different ways and one of them is wrong in one entry; that this entry is never decisive holds for all texts but not for obvious reasons", "anchors": ["include/tudocomp/compressors/LZSSLCPCompressor.hpp: compress", "include/tudocomp/ds/TextDS.hpp", "include/tudocomp/ds/CompressedLCP.hpp: operator[]", "include/tudocomp/ds/SparseISA.hpp: operator[]"]}
{"id": "C78", "title": "The literal encoder reproduces every text with every coder", "statement": "The compressor encode writes all literals of the input through the chosen coder and decodes until the coder reports the end. With the Huffman, arithmetic and SLE coders (any k-mer length) compressing and decompressing gives back every text.", "quantifier": "every byte string, every coder option", "why_tests_cant": "the coders build tables from the frequencies of the text; whether the end of the data is recognised depends on padding bits, code lengths and k-mers of every possible text", "anchors": ["include/tudocomp/compressors/LiteralEncoder.hpp: compress, decompress", "include/tudocomp/coders/HuffmanCoder.hpp: Encoder, Decoder", "include/tudocomp/coders/SLECoder.hpp: Encoder, Decoder", "include/tudocomp/coders/ArithmeticCoder.hpp", "include/tudocomp/Coder.hpp: Decoder::eof"]}
{"id": "C79", "title": "Decompressing bytes that no compressor wrote", "statement": "For every algorithm and every byte string, decompressing comes to an end without touching memory outside its tables: it delivers some text or reports an error. The same holds for tdc --decompress on any file.", "quantifier": "every byte string, every algorithm and coder option, every kind of source", "why_tests_cant": "tests decompress what was compressed before; files that are truncated, altered or not made by tudocomp form an unbounded set of inputs in which every field can have every value", "anchors": ["include/tudocomp/compressors/LZ78Compressor.hpp: lz78::Decompressor, decompress", "include/tudocomp/compressors/lzw/LZWDecoding.hpp", "include/tudocomp/compressors/LZSSSlidingWindowCompressor.hpp: decompress", "include/tudocomp/compressors/RunLengthEncoder.hpp: rle_decode", "include/tudocomp/util/vbyte.hpp: read_vbyte", "include/tudocomp/ds/bwt.hpp: decode_bwt", "include/tudocomp/compressors/MTFCompressor.hpp: mtf_decode", "include/tudocomp/io/BitIStream.hpp: read_unary, read_ternary"]}
{"id": "C80", "title": "lz78 and lzw with the Judy trie", "statement": "With the trie judy (offered if the Judy library is present), lz78 and lzw give back every text, with every coder.", "quantifier": "every text and every coder", "why_tests_cant": "the nodes share one array with the roots; whether two keys meet depends on the bytes of the text and on the number of every node made so far", "anchors": ["include/tudocomp/compressors/lz78/JudyTrie.hpp", "include/tudocomp/compressors/lz78/squeeze_node.hpp", "include/tudocomp/compressors/LZ78Compressor.hpp", "include/tudocomp/compressors/LZWCompressor.hpp"]}
