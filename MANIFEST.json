{
 "claims": [
  {
   "property": "C01",
   "status": "proved",
   "theorems": [
    "Tdc.bitstream_roundtrip",
    "Tdc.reader_is_bit_list"
   ],
   "note": "Reader/writer state machines over bytes; the destructor trailer included."
  },
  {
   "property": "C02",
   "status": "proved",
   "theorems": [
    "Tdc.bitstream_size"
   ],
   "note": ""
  },
  {
   "property": "C03",
   "status": "proved",
   "theorems": [
    "Tdc.intcodes_roundtrip"
   ],
   "note": "Any mixture of codes; each value in the domain of its code."
  },
  {
   "property": "C04",
   "status": "proved",
   "theorems": [
    "Tdc.bitsFor_exact",
    "Tdc.idivCeil_exact",
    "Tdc.bytesFor_exact"
   ],
   "note": ""
  },
  {
   "property": "C05",
   "status": "proved",
   "theorems": [
    "Tdc.vbyte_roundtrip",
    "Tdc.vbyte_length"
   ],
   "note": ""
  },
  {
   "property": "C06",
   "status": "proved",
   "theorems": [
    "Tdc.coders_roundtrip"
   ],
   "note": ""
  },
  {
   "property": "C07",
   "status": "proved",
   "theorems": [
    "Tdc.noop_lossless",
    "Tdc.literal_lossless"
   ],
   "note": ""
  },
  {
   "property": "C08",
   "status": "partial",
   "theorems": [
    "Tdc.rle_lossless_partial",
    "Tdc.rle_diverges"
   ],
   "note": "False of the code for inputs ending in FF FF (never terminates, proved); proved for every other input."
  },
  {
   "property": "C09",
   "status": "proved",
   "theorems": [
    "Tdc.mtf_lossless",
    "Tdc.mtf_repeat_zero",
    "Tdc.mtf_step"
   ],
   "note": ""
  },
  {
   "property": "C10",
   "status": "partial",
   "theorems": [
    "Tdc.lz78_lossless",
    "Tdc.lz78_lossless_partial",
    "Tdc.lz78_gamma_ub",
    "Tdc.lz78_hash_lossless_partial",
    "Tdc.lz78_hash_zero_lost",
    "Tdc.lz78_rolling_lossless_partial"
   ],
   "note": "Proved for binary, binary_sorted and ternary tries with bit/ascii coders; false for gamma/delta with a negative left-over char and for the hash tries with zero bytes (both negations proved)."
  },
  {
   "property": "C11",
   "status": "partial",
   "theorems": [
    "Tdc.lz78_dict_size_partial",
    "Tdc.lz78_dict_size_broken"
   ],
   "note": "False of the code: the decoder never resets (proved); holds while the dictionary does not fill up."
  },
  {
   "property": "C12",
   "status": "partial",
   "theorems": [
    "Tdc.lzw_lossless",
    "Tdc.lzw_dict_size_partial",
    "Tdc.lzw_hash_lossless_partial",
    "Tdc.lzw_rolling_lossless_partial",
    "Tdc.lzw_small_dict_ub",
    "Tdc.lzw_bit_512_broken"
   ],
   "note": "Unlimited dictionary proved; bounded dictionary false for dict_size<=256 and for the bit coder with dict_size 512 (negations proved)."
  },
  {
   "property": "C13",
   "status": "partial",
   "theorems": [
    "Tdc.trie_is_map",
    "Tdc.dictRun_spec",
    "Tdc.hash_trie_not_map",
    "Tdc.hash_trie_is_map_partial"
   ],
   "note": "Binary, sorted binary and ternary tries proved; hash tries violate it for byte 0 below node 0 (proved)."
  },
  {
   "property": "C14",
   "status": "partial",
   "theorems": [
    "Tdc.lzss_window_lossless_partial",
    "Tdc.lzss_window_zero_broken",
    "Tdc.lzss_window_bit_broken"
   ],
   "note": "False of the code for window=0 and for the bit coder with any window that is not a power of two (both proved); proved for all other cases."
  },
  {
   "property": "C15",
   "status": "proved",
   "theorems": [
    "Tdc.lzss_coding_lossless",
    "Tdc.lzss_coding_lossless_any"
   ],
   "note": ""
  },
  {
   "property": "C16",
   "status": "proved",
   "theorems": [
    "Tdc.lzss_lcp_factors",
    "Tdc.lzss_lcp_lossless",
    "Tdc.lzss_lcp_threshold_zero_broken"
   ],
   "note": "Suffix array from divsufsort is assumed correct (exists_isSA shows one always exists)."
  },
  {
   "property": "C33",
   "status": "proved",
   "theorems": [
    "Tdc.textds_exact",
    "Tdc.phi_plcp_exact",
    "Tdc.exists_isSA"
   ],
   "note": "PLCP[n-1] is never written by the code (plcp_last_garbage) and excluded."
  },
  {
   "property": "C34",
   "status": "proved",
   "theorems": [
    "Tdc.text_literals_spec",
    "Tdc.text_literals_announced"
   ],
   "note": ""
  },
  {
   "property": "C17",
   "status": "partial",
   "theorems": [
    "Tdc.bwt_invertible_partial",
    "Tdc.bwt_compressor_lossless_partial",
    "Tdc.bwt_255_broken",
    "Tdc.bwt_lossy",
    "Tdc.bwt_lf_partial"
   ],
   "note": "False of the code for texts containing byte 255 (negation proved for a whole family); proved for all texts without it."
  },
  {
   "property": "C18",
   "status": "partial",
   "theorems": [
    "Tdc.restrict_output_roundtrip_partial",
    "Tdc.unrestrict_restrict_partial",
    "Tdc.unrestrict_null_only_broken",
    "Tdc.restrict_needs_pool",
    "Tdc.restrict_thirteen_broken"
   ],
   "note": "False of the code (i) for restrictions that exhaust the pool of 13 replacement bytes and (ii) when a stream buffer with null termination only is unrestricted and the data contain 255; both negations proved for whole families, the rest proved."
  },
  {
   "property": "C19",
   "status": "partial",
   "theorems": [
    "Tdc.restrict_agree_partial",
    "Tdc.canEscape_six",
    "Tdc.restrict_needs_pool"
   ],
   "note": "Needs CanEscape (enough replacement bytes in the pool; necessary, and implied by at most six forbidden bytes)."
  },
  {
   "property": "C20",
   "status": "partial",
   "theorems": [
    "Tdc.restrict_agree_partial",
    "Tdc.restrict_output_roundtrip_partial",
    "Tdc.restrict_needs_pool"
   ],
   "note": "Same side condition as C19."
  },
  {
   "property": "C21",
   "status": "proved",
   "theorems": [
    "Tdc.restr_canonical",
    "Tdc.restr_or_spec",
    "Tdc.restr_or_algebra"
   ],
   "note": ""
  },
  {
   "property": "C22",
   "status": "partial",
   "theorems": [
    "Tdc.change_restrictions_partial",
    "Tdc.change_restrictions_null_only_broken"
   ],
   "note": "Any sequence of changes; false of the code when leaving a null-termination-only restriction with 255 in the data (negation proved)."
  },
  {
   "property": "C23",
   "status": "partial",
   "theorems": [
    "Tdc.slice_compose_partial",
    "Tdc.memory_input_exact",
    "Tdc.file_input_exact_partial",
    "Tdc.stream_history_exact_partial",
    "Tdc.slice_open_end_broken",
    "Tdc.file_view_overruns",
    "Tdc.file_stream_ignores_end",
    "Tdc.stream_slice_255_broken",
    "Tdc.stream_slice_end_broken"
   ],
   "note": "Five deviations of the code proved as negations; everything else proved, for streams over every history of requests."
  },
  {
   "property": "C24",
   "status": "proved",
   "theorems": [
    "Tdc.chain_lossless",
    "Tdc.chain_run",
    "Tdc.pipeline_lossless",
    "Tdc.bwt_mtf_pipeline"
   ],
   "note": "Any nesting of chains, any source kind."
  },
  {
   "property": "C35",
   "status": "partial",
   "theorems": [
    "Tdc.driver_header_roundtrip_partial",
    "Tdc.driver_raw_roundtrip",
    "Tdc.driver_long_id_broken"
   ],
   "note": "False for algorithm ids of 1024 or more characters (negation proved)."
  },
  {
   "property": "C25",
   "status": "partial",
   "theorems": [
    "Tdc.huffman_lossless_partial",
    "Tdc.huffman_byte255_broken",
    "Tdc.lzss_huffman_lossless_partial",
    "Tdc.lzss_lcp_huffman_lossless_partial"
   ],
   "note": "False of the code when byte 255 is among the announced literals together with another byte (negation proved: out-of-bounds write); proved for everything else, for every conforming std heap/sort."
  },
  {
   "property": "C26",
   "status": "proved",
   "theorems": [
    "Tdc.huffman_kraft"
   ],
   "note": ""
  },
  {
   "property": "C36",
   "status": "proved",
   "theorems": [
    "Tdc.huffman_optimal",
    "Tdc.huffman_optimal_kraft"
   ],
   "note": ""
  },
  {
   "property": "C27",
   "status": "partial",
   "theorems": [
    "Tdc.SLE.sle_lossless_partial",
    "Tdc.SLE.lzss_sle_lossless_partial",
    "Tdc.SLE.lzss_lcp_sle_lossless_partial",
    "Tdc.SLE.sle_no_literals_broken",
    "Tdc.SLE.sle_k0_broken",
    "Tdc.SLE.sle_k8_broken",
    "Tdc.SLE.sle_k9_broken"
   ],
   "note": "Proved for k-mer lengths 1 to 7 and non-empty announcements; false of the code for k=0, k=8, k>=9 and for an empty announcement with k>1 (negations proved)."
  },
  {
   "property": "C28",
   "status": "partial",
   "theorems": [
    "Tdc.UintT.uint_programs_partial",
    "Tdc.UintT.uint_assign_ring",
    "Tdc.UintT.uint_of_int",
    "Tdc.UintT.uint_of_int_exact",
    "Tdc.UintT.uint_incr_decr",
    "Tdc.UintT.uint_assign_bits",
    "Tdc.UintT.uint_assign_div",
    "Tdc.UintT.uint_assign_shift",
    "Tdc.UintT.uint_compare",
    "Tdc.UintT.uint_expression_not_modular",
    "Tdc.UintT.uint_compare_negative",
    "Tdc.UintT.uint_shift_undefined",
    "Tdc.UintT.uint_limits_max",
    "Tdc.UintT.uint1_not_modular",
    "Tdc.UintT.uint1_exact"
   ],
   "note": "Stored values are exact modulo 2^N after any program; unstored expressions are not (witness), uint_t<1> is bool, numeric_limits::max() is 0 for 54..63 bits."
  },
  {
   "property": "C29",
   "status": "proved",
   "theorems": [
    "Tdc.RS.rank_exact"
   ],
   "note": ""
  },
  {
   "property": "C30",
   "status": "partial",
   "theorems": [
    "Tdc.RS.select_exact_partial",
    "Tdc.RS.select1_exact",
    "Tdc.RS.select0_exact_aligned",
    "Tdc.RS.IsKth.unique",
    "Tdc.RS.select0_padding_broken"
   ],
   "note": "Complete for Select1 with clear padding and for Select0 on sizes divisible by 64; Select0 counts padding zeros, so it answers orders that do not exist (witness)."
  },
  {
   "property": "C31",
   "status": "partial",
   "theorems": [
    "Tdc.AMH.heap_set_partial",
    "Tdc.AMH.heap_max_partial",
    "Tdc.AMH.heap_max_broken",
    "Tdc.AMH.heap_zero_key_ub"
   ],
   "note": "The set of items, keys and size are exact for every allowed history with positive keys; get_max is a largest item when only largest items are removed. Without that it is false (witness), and a key of 0 always leads out of the vector (proved for all histories)."
  },
  {
   "property": "C32",
   "status": "partial",
   "theorems": [
    "Tdc.HM.hashmap_refines_partial",
    "Tdc.HM.hashmap_linear_partial",
    "Tdc.HM.hashmap_default",
    "Tdc.HM.hashmap_is_table",
    "Tdc.HM.terminates_default",
    "Tdc.HM.hashmap_quad_hangs",
    "Tdc.HM.quad_never_stops",
    "Tdc.HM.hashmap_noob_hangs",
    "Tdc.HM.hashmap_full_hangs",
    "Tdc.HM.hashmap_direct_misses"
   ],
   "note": "Answers are always those of a finite map if the call returns (every hash, prober, size manager, growth policy); total for linear probing with power of two sizes and load factors 1..99. False of the code (does not return) for quadratic probing, for SizeManagerNoob on small tables, and for load_factor=100 (negations proved)."
  },
  {
   "property": "C37",
   "status": "partial",
   "theorems": [
    "Tdc.BPV.bpv_refines_partial",
    "Tdc.BPV.bpv_eq",
    "Tdc.BPV.bpv_eq_histories",
    "Tdc.BPV.bpv_iterators_partial",
    "Tdc.BPV.capacity_ge",
    "Tdc.BPV.bpv_resize_stale",
    "Tdc.BPV.bpv_resize_same_width",
    "Tdc.BPV.bpv_fixed_width_corrupts",
    "Tdc.BPV.bpv_moved_from",
    "Tdc.BPV.bpv_capacity",
    "Tdc.BPV.bpv_iterator_gt",
    "Tdc.BPV.bpv_iterator_diff"
   ],
   "note": "Proved for all histories except growing with resize(n) after shrinking (stale values return) and resize(n,val,w) with unchanged width (does nothing); both negations are proved. Iterator > and negative differences, width() on fixed widths, capacity() and moved-from vectors deviate (proved)."
  },
  {
   "property": "C38",
   "status": "proved",
   "theorems": [
    "Tdc.LC.lcp_decode_any",
    "Tdc.LC.lcp_decode_nulls"
   ],
   "note": ""
  },
  {
   "property": "C39",
   "status": "partial",
   "theorems": [
    "Tdc.LC.lcp_strategies_greedy_partial",
    "Tdc.LC.lcp_plcp_greedy",
    "Tdc.LC.lcp_peaks_sound",
    "Tdc.LC.lcp_naive_sound",
    "Tdc.LC.lcp_bulldozer_no_factors",
    "Tdc.LC.lcp_bulldozer_intended_sound",
    "Tdc.LC.lcp_naive_threshold_zero_broken",
    "Tdc.LC.lcp_greedy_disjoint",
    "Tdc.LC.maxheap_overlapping",
    "Tdc.LC.lcp_arrays_threshold_zero_broken",
    "Tdc.LC.lcp_maxlcp_threshold_zero_broken",
    "Tdc.LC.lcp_plcp_threshold_zero_broken"
   ],
   "note": "Proved for ArraysComp, MaxLCPStrategy, BoostHeap, PLCPStrategy (contract of the boost heap assumed; PLCPStrategy up to reordering) with threshold >= 1, soundness for PLCPPeaksStrategy and NaiveStrategy (the latter is not greedy: it keeps what it copies); BulldozerStrategy never finds a factor (a shadowed vector); false of MaxHeapStrategy (overlapping factors, witness) and of threshold 0 (negations proved)."
  },
  {
   "property": "C40",
   "status": "partial",
   "theorems": [
    "Tdc.LC.lcpcomp_lossless_partial",
    "Tdc.LC.lcpcomp_peaks_lossless",
    "Tdc.LC.lcpcomp_huffman_lossless_partial",
    "Tdc.LC.lcpcomp_sle_lossless_partial",
    "Tdc.LC.maxheap_lossy"
   ],
   "note": "Proved for every strategy but MaxHeapStrategy, for which a text that cannot be decompressed is given. NaiveStrategy and BulldozerStrategy (not registered) are included."
  },
  {
   "property": "C41",
   "status": "proved",
   "theorems": [
    "Tdc.LC.lcp_flatten_sound"
   ],
   "note": ""
  },
  {
   "property": "C42",
   "status": "partial",
   "theorems": [
    "Tdc.Arith.arithmetic_lossless_partial",
    "Tdc.Arith.arithmetic_zeros_fail",
    "Tdc.Arith.arithmetic_255_lost",
    "Tdc.Arith.arithmetic_255_lossy",
    "Tdc.Arith.arithmetic_rare_zero_fails",
    "Tdc.Arith.arithmetic_empty_fails"
   ],
   "note": "Proved for all texts below 2^31 bytes without byte 255, with a byte other than 0, in which byte 0 is absent or not rarer than every other byte. False of the code for the others: byte 255 is not counted, byte 0 is left out of the minimum, an empty text has no code book (families and witnesses proved)."
  },
  {
   "property": "C43",
   "status": "partial",
   "theorems": [
    "Tdc.RePair.repair_lossless",
    "Tdc.RePair.repair_huffman_lossless_partial",
    "Tdc.RePair.repair_empty_ub",
    "Tdc.RePair.repair_huffman_phantom"
   ],
   "note": "Proved for every universal coder and non-empty text, and for the Huffman coder without byte 255 and up to 255 rules. False of the code for the empty text (out of bounds read) and for the Huffman coder when the symbol of rule 255 stays in the text."
  },
  {
   "property": "C44",
   "status": "proved",
   "theorems": [
    "Tdc.RePair.repair_greedy",
    "Tdc.RePair.repair_irreducible"
   ],
   "note": ""
  },
  {
   "property": "C45",
   "status": "partial",
   "theorems": [
    "Tdc.U78.lz78u_lossless_partial",
    "Tdc.U78.lz78u_lossless_wide",
    "Tdc.U78.lz78u_huffman_lossless_partial",
    "Tdc.U78.lz78u_threshold_zero_hangs",
    "Tdc.U78.lz78u_overflow_lossy"
   ],
   "note": "Proved for every text, threshold >= 1 and coder pair as long as the number of factors fits into the entries of the table R. False of the code otherwise (72 character witness) and for threshold 0 (never ends, all texts). The sdsl suffix tree is represented by its definition."
  },
  {
   "property": "C46",
   "status": "partial",
   "theorems": [
    "Tdc.SI.sparse_isa_exact",
    "Tdc.SI.sparse_isa_text",
    "Tdc.SI.sparse_isa_t0"
   ],
   "note": "Complete for every option t >= 1; the accepted option t = 0 divides by zero on every text of two bytes or more (negation proved)."
  },
  {
   "property": "C47",
   "status": "partial",
   "theorems": [
    "Tdc.CL.compressed_lcp_exact_partial",
    "Tdc.CL.compressed_lcp_zero",
    "Tdc.CL.lcp_sada_exact",
    "Tdc.CL.lcp_forward_exact"
   ],
   "note": "Complete for LCPSada (sdsl select assumed exact) and the forward iterator; CompressedLCP is exact for ranks >= 1, its entry 0 is the start of the largest suffix instead of 0 (proved for all texts)."
  },
  {
   "property": "C48",
   "status": "partial",
   "theorems": [
    "Tdc.Gen.fibonacci_word",
    "Tdc.Gen.fibonacci_zero_broken",
    "Tdc.Gen.thueMorse_word_partial",
    "Tdc.Gen.thueMorse_length_broken",
    "Tdc.Gen.thueMorse_63_broken",
    "Tdc.Gen.runRich_word_partial",
    "Tdc.Gen.runRich_index_broken",
    "Tdc.Gen.random_range_partial",
    "Tdc.Gen.random_full_range_broken"
   ],
   "note": "Fibonacci words complete for n >= 1. False of the code otherwise, each negation proved: Thue-Morse words have half the documented length, run_rich(n) is the (n-1)-th string from n = 4 on, random is undefined when the range contains 127 and 128, fib(0) is undefined."
  },
  {
   "property": "C49",
   "status": "partial",
   "theorems": [
    "Tdc.Ast.parse_total",
    "Tdc.Ast.parse_complete",
    "Tdc.Ast.parse_sound",
    "Tdc.Ast.grammar_unambiguous",
    "Tdc.Ast.parse_print_partial",
    "Tdc.Ast.parse_chain",
    "Tdc.Ast.parse_trailing_ignored",
    "Tdc.Ast.parse_garbage_accepted",
    "Tdc.Ast.parse_print_quote_broken"
   ],
   "note": "Termination, completeness, soundness for a prefix, and the round trip for strings without double quote are proved for all texts and values. False of the code: text behind a complete value is silently dropped, and strings with a double quote do not survive printing (both proved)."
  },
  {
   "property": "C50",
   "status": "partial",
   "theorems": [
    "Tdc.Opt.eval_iff_means",
    "Tdc.Opt.meaning_unique",
    "Tdc.Opt.built_unambiguous",
    "Tdc.Opt.gather_consistent",
    "Tdc.Opt.eval_total",
    "Tdc.Opt.eval_fuel",
    "Tdc.Opt.keyword_order",
    "Tdc.Opt.positional_is_keyword",
    "Tdc.Opt.default_explicit",
    "Tdc.Opt.duplicate_last_wins",
    "Tdc.Opt.unknown_option_raises",
    "Tdc.Opt.too_many_raises",
    "Tdc.Opt.unknown_algorithm_raises",
    "Tdc.Opt.missing_option_rejected",
    "Tdc.Opt.options_available",
    "Tdc.Opt.pattern_is_selection",
    "Tdc.Opt.dynamic_does_not_select",
    "Tdc.Opt.select_iff",
    "Tdc.Opt.register_succeeds",
    "Tdc.Opt.builder_selection",
    "Tdc.Opt.builder_like_registry",
    "Tdc.Opt.integer_partial",
    "Tdc.Opt.malformed_integers",
    "Tdc.Opt.bool_iff",
    "Tdc.Opt.empty_string_rejected"
   ],
   "note": "Meaning, uniqueness, termination, selection, defaults, order independence and most rejections are proved for all declarations and strings. False of the code: duplicate options are accepted (the last wins, proved for all calls), malformed integers are accepted, an empty string counts as missing (both proved on witnesses); several user errors end in an assertion instead of an exception."
  },
  {
   "property": "C51",
   "status": "partial",
   "theorems": [
    "Tdc.Lfs.lfs_esa_lossless",
    "Tdc.Lfs.lfs_esa_huffman_lossless_partial",
    "Tdc.Lfs.lfs_esa_rules"
   ],
   "note": "Complete for bit and ASCII literals (and every other coder without header); with Huffman literals for texts without byte 255, which the Huffman coder cannot represent (C12)."
  },
  {
   "property": "C52",
   "status": "partial",
   "theorems": [
    "Tdc.Lfs.lfs_tree_lossless_partial",
    "Tdc.Lfs.lfs_tree_huffman_lossless_partial",
    "Tdc.Lfs.lfs_tree_rules_partial",
    "Tdc.Lfs.lfs_bst_lossless_partial",
    "Tdc.Lfs.lfs_bst_huffman_lossless_partial",
    "Tdc.Lfs.lfs_st_lossless_partial",
    "Tdc.Lfs.lfs_st_huffman_lossless_partial",
    "Tdc.Lfs.lfs_tree_min_lrf_zero_broken",
    "Tdc.Lfs.lfs_st_deep_broken"
   ],
   "note": "Proved for min_lrf >= 1 and every sound suffix tree (st: inner nodes of depth below 400); for bst and st also with the trees the code builds (C54), without any assumption on trees (st: no string of 400 characters occurs twice). False of the code otherwise, both negations proved: min_lrf = 0 runs off the bins for every text, st writes behind its bins for deep nodes. For sim_st the tree (sdsl) is an assumption."
  },
  {
   "property": "C53",
   "status": "partial",
   "theorems": [
    "Tdc.Lfs2.lfs2_lossless_partial",
    "Tdc.Lfs2.lfs2_huffman_lossless_partial",
    "Tdc.Lfs2.lfs2_grammar_partial",
    "Tdc.Lfs2.lfs2bst_lossless_partial",
    "Tdc.Lfs2.lfs2bst_huffman_lossless_partial",
    "Tdc.Lfs2.lfs2_min_lrf_zero_broken",
    "Tdc.Lfs2.lfs2_empty_broken",
    "Tdc.Lfs2.lfs2bst_empty_broken",
    "Tdc.Lfs2.lfs2_reuse_broken"
   ],
   "note": "Proved for new objects, min_lrf >= 1 (not the empty text with min_lrf = 1) and every sound suffix tree; for lfs2bst also with the tree the code builds (C54). False of the code otherwise, all negations proved: min_lrf = 0, the empty text with min_lrf = 1, and the second compress call of an object, since rules are not cleared."
  },
  {
   "property": "C54",
   "status": "partial",
   "theorems": [
    "Tdc.suffixTree_correct",
    "Tdc.binarySuffixTree_correct_partial",
    "Tdc.binarySuffixTree_short_broken"
   ],
   "note": "Complete for SuffixTree (all append sequences). BinarySuffixTree for all texts of at least two characters; for shorter texts it is false of the code (negation proved: out of bounds write, exception)."
  },
  {
   "property": "C55",
   "status": "proved",
   "theorems": [
    "Tdc.Esp.esp_lossless",
    "Tdc.Esp.plain_roundtrip"
   ],
   "note": "Texts of at most 2^32 bytes (__builtin_ctz sees 32 bits). The IPD map is an abstract map with arbitrary traversal order."
  },
  {
   "property": "C56",
   "status": "proved",
   "theorems": [
    "Tdc.Esp.esp_grammar",
    "Tdc.Esp.esp_size"
   ],
   "note": ""
  },
  {
   "property": "C57",
   "status": "proved",
   "theorems": [
    "Tdc.Esp.esp_sorted_lossless",
    "Tdc.Esp.esp_sorted_sound",
    "Tdc.Esp.sorted_roundtrip"
   ],
   "note": "For every coder of right-hand sides meeting Spec/DCoding.lean; instances in C58."
  },
  {
   "property": "C58",
   "status": "partial",
   "theorems": [
    "Tdc.Esp.esp_sorted_plain_lossless",
    "Tdc.Esp.esp_sorted_diff_lossless",
    "Tdc.Esp.esp_range_fit_sound_partial",
    "Tdc.Esp.range_fit_aborts",
    "Tdc.Esp.range_fit_aborts_iff",
    "Tdc.Esp.esp_range_fit_wt_sound_partial",
    "Tdc.Esp.range_fit_wt_aborts",
    "Tdc.Esp.range_fit_wt_aborts_iff",
    "Tdc.Esp.range_fit_wt_threshold"
   ],
   "note": "Complete for DPlain and DDiff. DRangeFit (with or without wavelet trees, every threshold and zero_min) decodes whatever it codes, but its CHECK ends the program on some texts, e.g. 01 01 (proved; the failing lists are characterized exactly); with wavelet trees and a threshold of 200 or more it always has undefined behaviour (proved)."
  },
  {
   "property": "C59",
   "status": "proved",
   "theorems": [
    "Tdc.Esp.wavelet_tree_roundtrip",
    "Tdc.Esp.mono_subseq_faithful",
    "Tdc.Esp.esp_mono_lossless",
    "Tdc.Esp.esp_mono_greedy_plain_lossless",
    "Tdc.Esp.esp_mono_optimal_plain_lossless",
    "Tdc.Esp.esp_mono_greedy_wt_lossless",
    "Tdc.Esp.esp_mono_optimal_wt_lossless"
   ],
   "note": "Names of subsequences coded by DPlain and DWaveletTree; std::stable_sort is List.mergeSort."
  },
  {
   "property": "C60",
   "status": "proved",
   "theorems": [
    "Tdc.Esp.subseq_greedy_decomposes",
    "Tdc.Esp.subseq_optimal_longest",
    "Tdc.Esp.subseq_greedy_not_longest"
   ],
   "note": ""
  },
  {
   "property": "C61",
   "status": "proved",
   "theorems": [
    "Tdc.Esp.dhuffman_roundtrip",
    "Tdc.Esp.dhuffman_optimal",
    "Tdc.Esp.esp_sorted_huffman_lossless",
    "Tdc.Esp.esp_mono_greedy_huffman_lossless",
    "Tdc.Esp.esp_mono_optimal_huffman_lossless"
   ],
   "note": ""
  },
  {
   "property": "C62",
   "status": "partial",
   "theorems": [
    "Tdc.CSH.csh_history_partial",
    "Tdc.CSH.csh_reserved_partial",
    "Tdc.CSH.csh_key_recovered",
    "Tdc.CSH.csh_crash",
    "Tdc.CSH.csh_stale_reference",
    "Tdc.CSH.csh_insert_keeps_old",
    "Tdc.CSH.csh_outgrown",
    "Tdc.CSH.lz78_csh_lossless_partial",
    "Tdc.CSH.lzw_csh_lossless_partial",
    "Tdc.CSH.lz78_csh_lossy",
    "Tdc.CSH.lz78_csh_crash"
   ],
   "note": "The full statement is false of the code (crash at the end of the table, stale references in small tables, too few buckets): negations proved; positive theorems for histories without these events."
  },
  {
   "property": "C63",
   "status": "partial",
   "theorems": [
    "Tdc.Rolling.lz78_wordpack_lossless_partial",
    "Tdc.Rolling.lz78_zbackup_lossless_partial",
    "Tdc.Rolling.lzw_wordpack_lossless_partial",
    "Tdc.Rolling.rolling_collision",
    "Tdc.Rolling.eight_collide",
    "Tdc.Rolling.lz78_rolling_collision",
    "Tdc.Rolling.lz78_zbackup_255_lost",
    "Tdc.Rolling.lz78_rolling_zero_lost",
    "Tdc.Rolling.lzw_zbackup_roots",
    "Tdc.Rolling.lzw_zbackup_lossy",
    "Tdc.Rolling.lzw_wordpack_zero",
    "Tdc.Rolling.lz78_rolling_finite_lossy",
    "Tdc.Rolling.lzw_rolling_finite_lossy",
    "Tdc.Rolling.lz78_rk_lossy",
    "Tdc.Rolling.lzw_rk_lossy",
    "Tdc.Rolling.lz78_rolling_lossless_partial",
    "Tdc.Rolling.lzw_rolling_lossless_partial"
   ],
   "note": "False of the code: collisions of the polynomial in base 257 modulo 2^64 (text of 111 letters), byte 0, byte 255 with zbackup, and LZW with zbackup already on abab (negations proved for every coder). Proved for texts of fewer than 36 (LZ78) and 28 (LZW) bytes without these bytes. For every hash function with finitely many states (so also Karp-Rabin, for every table of keys) some text is not reproduced (for LZ78 with 64-bit states one of at most 100 bytes); a text is reproduced if its substrings have different hash values."
  },
  {
   "property": "C64",
   "status": "partial",
   "theorems": [
    "Tdc.HT.lz78_hash_real_partial",
    "Tdc.HT.lzw_hash_real_partial",
    "Tdc.HT.rolling_real",
    "Tdc.HT.lz78_hash_default_partial",
    "Tdc.HT.lzw_hash_default_partial",
    "Tdc.HT.lz78_hash_plus_pow2_partial",
    "Tdc.HT.lzw_hash_plus_pow2_partial",
    "Tdc.HT.rolling_prime_partial",
    "Tdc.HT.lz78_hash_plus_hangs",
    "Tdc.HT.lz78_hash_plus_default_hangs",
    "Tdc.HT.lz78_rolling_plus_hangs",
    "Tdc.HT.lz78_rolling_plus_default_hangs",
    "Tdc.HT.lz78_hash_plus_restart"
   ],
   "note": "Soundness for all configurations, termination for tables of a power of two (hash, hash_plus) and of prime size (rolling). The full claim is false: with the default managers of hash_plus and rolling_plus the compressor recurses for ever on some texts of nine or ten bytes (proved for all hash functions), and restarting the dictionary after the change-over dereferences a released table."
  },
  {
   "property": "C65",
   "status": "partial",
   "theorems": [
    "Tdc.divsufsort_full_partial",
    "Tdc.divsufsort_swapmerge_partial",
    "Tdc.divsufsort_blocks_partial",
    "Tdc.divsufsort_contracts_partial",
    "Tdc.sssort_spec",
    "Tdc.ssMintrosort_spec",
    "Tdc.ssHeapsort_ok",
    "Tdc.ssPartition_spec",
    "Tdc.ssInsertionsort_spec",
    "Tdc.ssInplacemerge_spec",
    "Tdc.ssRotate_moved",
    "Tdc.ssRange_spec",
    "Tdc.smRef_ok",
    "Tdc.ssIsqrt_eq",
    "Tdc.trRef_ok",
    "Tdc.sortStars_spec",
    "Tdc.divsufsort_sorts_partial",
    "Tdc.divsufsort_bstars",
    "Tdc.bstarsRanked_exists",
    "Tdc.wrapCell_eq",
    "Tdc.wrapCell_32"
   ],
   "note": "From any text and any buffer content to the suffix array, with the multikey introsort, its heap sort and its stack of 16 entries (which never gets full), the blocks of sssort and the merge in place by rotations. Missing: trsort, a parameter with the contract RankSortOk, and the proof that ss_swapmerge (merging blocks of 1024 substrings; modelled, and run on examples) meets SwapMergeOk; both contracts are shown to be satisfiable. divsufsort_blocks_partial needs only the first contract, for texts with at most 1024 B* suffixes."
  },
  {
   "property": "C66",
   "status": "partial",
   "theorems": [
    "Tdc.Cedar.lz78_cedar_ub",
    "Tdc.Cedar.lz78_cedar_lossy"
   ],
   "note": "False of the code: moving the cell of the root (string 255 254) leaves a stale position in m_roots. A text of twelve letters reads outside the array with every coder, FE 00 FE 00 comes back as FE 00 00 00. Missing: a proof for the texts on which no node conflicts with the root."
  },
  {
   "property": "C67",
   "status": "partial",
   "theorems": [
    "Tdc.Esp.ipd_std_isMap",
    "Tdc.Esp.ipd_hash_isMap",
    "Tdc.Esp.ipd_dynamic_std_isMap",
    "Tdc.Esp.ipd_dynamic_hash_isMap_partial",
    "Tdc.Esp.ipd_dynamic_hash_loses",
    "Tdc.Esp.ipd_dynamic_hash_not_isMap",
    "Tdc.Esp.esp_ipd_grammar",
    "Tdc.Esp.esp_ipd_lossless"
   ],
   "note": "Everything is proved except that dynamic_size of hash_map is not a map for the keys (2^B-1, 2^B-1), B = 16, 24, ..., when the widths grow to B for this key: the entry is lost (negation proved for every hash function). ESP never does this: grammar and output are proved to be the same for all maps."
  },
  {
   "property": "C68",
   "status": "partial",
   "theorems": [
    "Tdc.Stat.stat_report_partial",
    "Tdc.Stat.stat_split",
    "Tdc.Stat.stat_long_title",
    "Tdc.Stat.stat_long_value",
    "Tdc.Stat.stat_paused_log",
    "Tdc.Stat.stat_paused_phase",
    "Tdc.Stat.stat_outer_log"
   ],
   "note": "Proved for titles, keys and values of fewer than 64 bytes, tracking paused around allocations only, values logged in the current phase. For each of the other cases the claim is false of the code (proved): strings of 64 bytes are read past their buffer, log and a new phase resume paused tracking, log_stat of an outer phase counts its own bytes in the inner one."
  },
  {
   "property": "C69",
   "status": "partial",
   "theorems": [
    "Tdc.Json.json_text_partial",
    "Tdc.Json.json_string_iff",
    "Tdc.Json.json_chars_unique",
    "Tdc.Json.json_backslash",
    "Tdc.Json.json_backslash_end",
    "Tdc.Json.json_name",
    "Tdc.Stat.stat_report_text_partial"
   ],
   "note": "Exactly the strings without backslash and control characters are printed as themselves (json_string_iff); names also need to be free of quotes (negation proved). Floating-point numbers are not modelled."
  },
  {
   "property": "C70",
   "status": "partial",
   "theorems": [
    "Tdc.Malloc.malloc_accounts_partial",
    "Tdc.Malloc.malloc_fails",
    "Tdc.Malloc.malloc_overflow",
    "Tdc.Malloc.calloc_overflow",
    "Tdc.Malloc.realloc_fails",
    "Tdc.Malloc.calloc_fails"
   ],
   "note": "Proved for sizes below 2^64-16 and a C library that has memory. Otherwise false of the code (proved): sizes and products wrap around, a failing realloc or calloc writes through the null pointer. Blocks from other functions (posix_memalign), recognised by the absence of the magic number, are not modelled."
  },
  {
   "property": "C71",
   "status": "proved",
   "theorems": [
    "Tdc.Rolling.rk_eat",
    "Tdc.Rolling.rk_hash",
    "Tdc.Rolling.rk_update",
    "Tdc.Rolling.rk_roll"
   ],
   "note": "For every table of keys and every window length (4 in the code). The random generator that draws the keys is not modelled."
  },
  {
   "property": "C72",
   "status": "proved",
   "theorems": [
    "Tdc.VW.view_index",
    "Tdc.VW.view_at",
    "Tdc.VW.view_front_back",
    "Tdc.VW.view_history",
    "Tdc.VW.view_compare",
    "Tdc.VW.view_trichotomy",
    "Tdc.VW.view_starts_ends",
    "Tdc.VW.view_toVector",
    "Tdc.VW.view_hash",
    "Tdc.VW.view_removeSuffix_ignored",
    "Tdc.VW.view_substr_overrun",
    "Tdc.VW.view_popBack_empty"
   ],
   "note": "For arguments that fit the view; what happens otherwise is shown by the last three theorems. Element type uint8_t."
  },
  {
   "property": "C73",
   "status": "partial",
   "theorems": [
    "Tdc.MS.viewstream_reads",
    "Tdc.MS.viewstream_history_partial",
    "Tdc.MS.viewstream_seek_end",
    "Tdc.MS.viewstream_seek_negative",
    "Tdc.MS.viewstream_debug",
    "Tdc.MS.viewstream_copy"
   ],
   "note": "Reading is proved without restriction. Seeking is proved in release builds for positions that are not negative and for the end itself; for the rest the claim is false of the code (proved): offsets from the end have the wrong sign, negative positions are accepted and the next read is in front of the memory, debug builds abort."
  },
  {
   "property": "C74",
   "status": "proved",
   "theorems": [
    "Tdc.OUT.output_memory_stream",
    "Tdc.OUT.output_file_append",
    "Tdc.OUT.output_file_overwrite",
    "Tdc.OUT.output_copy_truncates",
    "Tdc.OUT.output_failed_open_appends"
   ],
   "note": "For programs that keep one Output per sink and close each stream before opening the next, with restrictions that can be escaped. The last two theorems show what happens with a second, restricted copy of the Output and after a failed attempt to open the file."
  },
  {
   "property": "C75",
   "status": "partial",
   "theorems": [
    "Tdc.algo_lossless_partial",
    "Tdc.algo_driver_roundtrip_partial",
    "Tdc.huffman_escaped_broken",
    "Tdc.bwt_end_to_end_broken",
    "Tdc.sys_exists"
   ],
   "note": "All registered compressors with all registered options except the trie cedar (C66), on the texts described by Algo.Safe (sizes that fit, known defects avoided); the sdsl suffix trees are taken from the surroundings. The claim is false of the code for other texts: with the Huffman coder every text with a byte 0 or 255 fails, bwt loses texts ending with byte 255 (both proved), and see the findings of the single compressors."
  },
  {
   "property": "C76",
   "status": "partial",
   "theorems": [
    "Tdc.TObj.textds_history_partial",
    "Tdc.TObj.textds_needs_sentinel",
    "Tdc.TObj.textds_release_broken",
    "Tdc.TObj.textds_compressed_lcp_dangling",
    "Tdc.TObj.textds_sparse_isa_dangling",
    "Tdc.TObj.textds_inplace_throws",
    "Tdc.TObj.textds_phi_reference_dangling"
   ],
   "note": "Proved for all histories without release_x in which, if a structure points to the suffix array, the suffix array is requested too. For the other histories the claim is false of the code, for every text (the last five theorems)."
  },
  {
   "property": "C77",
   "status": "proved",
   "theorems": [
    "Tdc.TObj.textds_arrays_unique",
    "Tdc.TObj.lzss_lcp_textds_irrelevant",
    "Tdc.TObj.lzss_lcp_textds_lossless"
   ],
   "note": "Texts below 4 GiB, SparseISA with t >= 1 (t = 0 divides by zero)."
  },
  {
   "property": "C78",
   "status": "partial",
   "theorems": [
    "Tdc.encode_huffman_lossless_partial",
    "Tdc.encode_huffman_255_broken",
    "Tdc.encode_sle_lossless_partial",
    "Tdc.encode_sle_empty_broken",
    "Tdc.encode_sle_k0_broken",
    "Tdc.encode_sle_k9_broken",
    "Tdc.encode_sle_k8_lossy",
    "Tdc.Arith.arithmetic_lossless_partial"
   ],
   "note": "Huffman: exactly the texts in which byte 255 does not occur beside another byte (the negation covers all others below 4 GiB). SLE: kmer 1 to 7 (the empty text only with kmer 1); for kmer 0, 8 and above 8 the code is wrong (negations proved). Arithmetic: the conditions of arithmetic_lossless_partial."
  },
  {
   "property": "C79",
   "status": "partial",
   "theorems": [
    "Tdc.noop_any_input",
    "Tdc.mtf_any_input",
    "Tdc.bwt_any_input",
    "Tdc.literal_any_input_partial",
    "Tdc.literal_zeros_hang",
    "Tdc.rle_any_input_partial",
    "Tdc.rle_shift_broken",
    "Tdc.rle_truncated_explodes",
    "Tdc.lz78_any_input_partial",
    "Tdc.lz78_malformed_hangs",
    "Tdc.lz78_zeros_hang",
    "Tdc.lzw_any_input_partial",
    "Tdc.lzw_malformed_broken",
    "Tdc.lzw_zeros_hang",
    "Tdc.lzss_any_input_partial",
    "Tdc.lzss_malformed_broken",
    "Tdc.lzss_zeros_hang",
    "Tdc.others_malformed_broken",
    "Tdc.others_zeros_hang",
    "Tdc.driver_any_file_partial"
   ],
   "note": "True of noop, mtf, bwt, encode(bit/ascii) and all chains of them, also through the driver. False of the code elsewhere (negations proved): gamma/delta/ternary codes hang at the end of the data, rle shifts too far, lz78 and lzss follow references to what is not there, lzw fails on a first code 256; for rle, lz78 and lzw the malformed inputs are characterised exactly, for lzss with bit/ascii it is proved that decompress always ends."
  },
  {
   "property": "C80",
   "status": "partial",
   "theorems": [
    "Tdc.lz78_judy_lossless_partial",
    "Tdc.lzw_judy_lossless_partial",
    "Tdc.lzw_judy_broken"
   ],
   "note": "The library array is trusted to be an array. lz78: every text (the restriction on the last byte for gamma/delta is that of the compressor, C02). lzw: proved for every text without the byte 0; false otherwise: the text 0,c becomes the single character c-1, for every c and every coder (negation proved)."
  }
 ]
}