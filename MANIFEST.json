{
 "claims": [
  {
   "property": "C01",
   "status": "proved",
   "theorems": [
    "Lib842.Props.C01_sw_round_trip"
   ],
   "note": ""
  },
  {
   "property": "C02",
   "status": "partial",
   "theorems": [
    "Lib842.Props.C02_opt_round_trip_partial",
    "Lib842.Props.C02_opt_round_trip_false"
   ],
   "note": "Proved for all alignments and all lengths except where decompression falls back to the serial version (unaligned buffer) with more than UINT_MAX bytes; there the claim is false (negation proved)."
  },
  {
   "property": "C03",
   "status": "proved",
   "theorems": [
    "Lib842.Props.C03_sw_then_opt",
    "Lib842.Props.C03_opt_then_sw"
   ],
   "note": "The aligned path has no length limit; the serial decompressor (also as fallback) is limited to UINT_MAX as the claim says."
  },
  {
   "property": "C04",
   "status": "proved",
   "theorems": [
    "Lib842.Props.C04_opt_compress_in_bounds",
    "Lib842.Props.C04_sw_compress_in_bounds"
   ],
   "note": "Serial: every input. Optimised: every non-empty input; the empty aligned input is the only undefined case (proved as an equivalence)."
  },
  {
   "property": "C05",
   "status": "partial",
   "theorems": [
    "Lib842.Props.C05_sw_decompress_out_of_bounds",
    "Lib842.Props.C05_sw_decompress_memory_safe_false",
    "Lib842.Props.C05_sw_decompress_memory_safe_partial",
    "Lib842.Props.C05_sw_decompress_buffer_size"
   ],
   "note": "False as stated: a repeat op after 1 to 7 bytes of short data reads before the output buffer (witness and negation proved). Proved instead: this is the only out-of-bounds access (an exact characterisation of the inputs)."
  },
  {
   "property": "C06",
   "status": "proved",
   "theorems": [
    "Lib842.Props.C06_opt_decompress_memory_safe"
   ],
   "note": ""
  },
  {
   "property": "C07",
   "status": "proved",
   "theorems": [
    "Lib842.Props.C07_opt_length_contract",
    "Lib842.Props.C07_sw_length_contract"
   ],
   "note": "Optimised compressor: for calls of the same alignment class (the class selects the serial fallback)."
  },
  {
   "property": "C08",
   "status": "partial",
   "theorems": [
    "Lib842.Props.C08_opt_decompress_olen_zero",
    "Lib842.Props.C08_opt_compress_olen_kept",
    "Lib842.Props.C08_opt_compress_olen_zero_false",
    "Lib842.Props.C08_opt_compress_olen_zero_partial",
    "Lib842.Props.C08_sw_compress_olen_zero",
    "Lib842.Props.C08_sw_decompress_olen_zero"
   ],
   "note": "False for optsw842_compress when the length is not a multiple of 8 (negation proved): *olen keeps its value. Proved for every other failure and for the other three functions."
  },
  {
   "property": "C09",
   "status": "proved",
   "theorems": [
    "Lib842.Props.C09_cuda_terminates",
    "Lib842.Props.C09_opt_decompress_terminates",
    "Lib842.Props.C09_sw_decompress_terminates"
   ],
   "note": "Serial, optimised and CUDA decoder. C09_cuda_terminates also shows that the result none of the model of a CUDA thread always stands for an access out of bounds, never for lack of fuel."
  },
  {
   "property": "C10",
   "status": "proved",
   "theorems": [
    "Lib842.Props.C10_opt_capacity_exact",
    "Lib842.Props.C10_sw_capacity_exact"
   ],
   "note": "Optimised compressor: one byte string per input for aligned buffers, the serial one otherwise."
  },
  {
   "property": "C11",
   "status": "proved",
   "theorems": [
    "Lib842.Props.C11_sw_no_swallowed_error"
   ],
   "note": ""
  },
  {
   "property": "C12",
   "status": "proved",
   "theorems": [
    "Lib842.Props.C12_opt_worst_case",
    "Lib842.Props.C12_sw_worst_case"
   ],
   "note": ""
  },
  {
   "property": "C13",
   "status": "proved",
   "theorems": [
    "Lib842.Props.C13_sw_accepts_exactly_format",
    "Lib842.Props.C13_format_unambiguous",
    "Lib842.Props.C13_sw_success_is_decoding"
   ],
   "note": ""
  },
  {
   "property": "C14",
   "status": "proved",
   "theorems": [
    "Lib842.Props.C14_opt_accepts_exactly_format",
    "Lib842.Props.C14_opt_success_is_decoding"
   ],
   "note": ""
  },
  {
   "property": "C15",
   "status": "proved",
   "theorems": [
    "Lib842.Props.C15_opt_crc_checked",
    "Lib842.Props.C15_opt_wrong_crc",
    "Lib842.Props.C15_sw_crc_checked",
    "Lib842.Props.C15_sw_wrong_crc"
   ],
   "note": ""
  },
  {
   "property": "C16",
   "status": "proved",
   "theorems": [
    "Lib842.Props.C16_crc32be_correct"
   ],
   "note": ""
  },
  {
   "property": "C17",
   "status": "proved",
   "theorems": [
    "Lib842.Props.C17_table_entries",
    "Lib842.Props.C17_table_generated",
    "Lib842.Props.C17_table_shape"
   ],
   "note": ""
  },
  {
   "property": "C18",
   "status": "proved",
   "theorems": [
    "Lib842.Props.C18_burst_detected",
    "Lib842.Props.C18_sw_burst_never_returned",
    "Lib842.Props.C18_opt_burst_never_returned"
   ],
   "note": ""
  },
  {
   "property": "C19",
   "status": "proved",
   "theorems": [
    "Lib842.Props.C19_spec_eight_bytes",
    "Lib842.Props.C19_sw_compress",
    "Lib842.Props.C19_sw_decompress",
    "Lib842.Props.C19_opt_decompress",
    "Lib842.Props.C19_opt_compress",
    "Lib842.Props.C19_branch_free_compress",
    "Lib842.Props.C19_cuda",
    "Lib842.Props.C19_formulas",
    "Lib842.Props.C19_hls"
   ],
   "note": "Serial tables, switches of the optimised codec (template 0x00 of its compressor is two plain writes, covered by C02/C26), branch-free table and formulas, CUDA table, OpenCL formulas (0x19 is a separate case there), HLS length table."
  },
  {
   "property": "C20",
   "status": "proved",
   "theorems": [
    "Lib842.Props.C20_sw_cheapest_template"
   ],
   "note": ""
  },
  {
   "property": "C21",
   "status": "proved",
   "theorems": [
    "Lib842.Props.C21_opt_workspace_independent",
    "Lib842.Props.C21_sw_workspace_independent"
   ],
   "note": ""
  },
  {
   "property": "C22",
   "status": "partial",
   "theorems": [
    "Lib842.Props.C22_cuda_index_partial",
    "Lib842.Props.C22_cuda_rejects_false",
    "Lib842.Props.C22_ocl_index",
    "Lib842.Props.C22_ocl_ring_sizes",
    "Lib842.Props.C22_ring_unique",
    "Lib842.Props.C22_sw_index",
    "Lib842.Props.C22_opt_index"
   ],
   "note": "Serial, optimised and OpenCL decoders: proved for every position and index. CUDA: every written slot resolves to the documented offset, but a reference to an unwritten slot is not rejected (negation proved, C22_cuda_rejects_false)."
  },
  {
   "property": "C23",
   "status": "proved",
   "theorems": [
    "Lib842.Props.C23_opt_trailing_ignored",
    "Lib842.Props.C23_opt_appended_ignored",
    "Lib842.Props.C23_sw_trailing_ignored",
    "Lib842.Props.C23_sw_appended_ignored"
   ],
   "note": "Optimised decoder: the changed input must not be shorter than the original, because it is cut to whole 64-bit words."
  },
  {
   "property": "C24",
   "status": "proved",
   "theorems": [
    "Lib842.Props.C24_opt_capacity_exact",
    "Lib842.Props.C24_sw_capacity_exact"
   ],
   "note": ""
  },
  {
   "property": "C25",
   "status": "proved",
   "theorems": [
    "Lib842.Props.C25_opt_compress_endian",
    "Lib842.Props.C25_opt_decompress_endian",
    "Lib842.Props.C25_sw_compress_endian",
    "Lib842.Props.C25_sw_decompress_endian"
   ],
   "note": ""
  },
  {
   "property": "C26",
   "status": "proved",
   "theorems": [
    "Lib842.Props.C26_opt_hw_compatible",
    "Lib842.Props.C26_opt_refuses_odd",
    "Lib842.Props.C26_sw_hw_compatible",
    "Lib842.Props.C26_sw_short_last"
   ],
   "note": ""
  },
  {
   "property": "C27",
   "status": "partial",
   "theorems": [
    "Lib842.Props.C27_opt_alignment_false",
    "Lib842.Props.C27_opt_alignment_cut",
    "Lib842.Props.C27_opt_compress_alignment",
    "Lib842.Props.C27_opt_alignment_partial"
   ],
   "note": "False as stated (negation proved: short data and streams cut inside a word). Proved: true for every complete hardware-format stream of at most UINT_MAX output bytes."
  },
  {
   "property": "C28",
   "status": "partial",
   "theorems": [
    "Lib842.Props.C28_sw_accepts_undecompressible",
    "Lib842.Props.C28_sw_everything_decompressible_false",
    "Lib842.Props.C28_sw_everything_decompressible_partial"
   ],
   "note": "False as stated for inputs above UINT_MAX bytes (witness: 4 GiB of zeros; negation proved). Proved: true exactly up to UINT_MAX bytes."
  },
  {
   "property": "C29",
   "status": "partial",
   "theorems": [
    "Lib842.Props.C29_chunked_exact",
    "Lib842.Props.C29_chunked_partial",
    "Lib842.Props.C29_functions_keep_size",
    "Lib842.Props.C29_chunked_false",
    "Lib842.Props.C29_never_returns"
   ],
   "note": "False for chunk offsets of 2^32 or more (negation proved with 4 GiB stride) and for 2^32 or more chunks (never returns, proved). Proved: exact equivalence with successive single calls for all smaller offsets; also the exact behaviour modulo 2^32."
  },
  {
   "property": "C30",
   "status": "partial",
   "theorems": [
    "Lib842.Props.C30_reports_failures_partial",
    "Lib842.Props.C30_reports_failures_false"
   ],
   "note": "False: the functions return 0 whatever happens (negation proved). Proved: the return value is 0, so in particular when all chunks succeed."
  },
  {
   "property": "C31",
   "status": "proved",
   "theorems": [
    "Lib842.Props.C31_writes_only_regions",
    "Lib842.Props.C31_isolation",
    "Lib842.Props.C31_opt_decompress_total"
   ],
   "note": "Generic over the single-chunk function; instantiated for all four entry points."
  },
  {
   "property": "C32",
   "status": "proved",
   "theorems": [
    "Lib842.Props.C32_blocks_exactly_once",
    "Lib842.Props.C32_at_most_once",
    "Lib842.Props.C32_offset_bound",
    "Lib842.Props.C32_epochs_nonneg"
   ],
   "note": "Threads, calls and wakeups interleave in any order; a step is one critical section, one atomic operation or one callback. The block compression itself is abstract here (C36)."
  },
  {
   "property": "C33",
   "status": "proved",
   "theorems": [
    "Lib842.Props.C33_epoch_order"
   ],
   "note": ""
  },
  {
   "property": "C34",
   "status": "proved",
   "theorems": [
    "Lib842.Props.C34_finalize_callback",
    "Lib842.Props.C34_nothing_after",
    "Lib842.Props.C34_finalize_happens",
    "Lib842.Props.C34_decomp_finalize_callback",
    "Lib842.Props.C34_decomp_nothing_after",
    "Lib842.Props.C34_decomp_finalize_happens"
   ],
   "note": "Both streams: the finalize callback comes after the last block callback / decompression, once per operation, with the right argument, and it does come."
  },
  {
   "property": "C35",
   "status": "proved",
   "theorems": [
    "Lib842.Props.C35_no_deadlock",
    "Lib842.Props.C35_terminates",
    "Lib842.Props.C35_quit",
    "Lib842.Props.C35_decomp_no_deadlock",
    "Lib842.Props.C35_decomp_terminates",
    "Lib842.Props.C35_decomp_quit"
   ],
   "note": "Both streams: no reachable quiescent state other than waiting for the user or having ended; all thread activity between user calls terminates; the destructor ends all threads. For the decompression stream also: no accepted block is left in the queue while all threads sleep."
  },
  {
   "property": "C36",
   "status": "partial",
   "theorems": [
    "Lib842.Props.C36_contracts",
    "Lib842.Props.C36_block_shape",
    "Lib842.Props.C36_block_round_trip_partial",
    "Lib842.Props.C36_block_round_trip_debug",
    "Lib842.Props.C36_get_chunk",
    "Lib842.Props.C36_debug_false"
   ],
   "note": "Release builds (NDEBUG): proved for every chunked compressor/decompressor pair meeting ChunkContract, instantiated with all four software pairs. Debug builds: a block with a raw chunk aborts in Block::get_chunk (assert of the wrong sense), proved as C36_block_round_trip_debug / C36_debug_false."
  },
  {
   "property": "C37",
   "status": "proved",
   "theorems": [
    "Lib842.Props.C37_blocks_exactly_once",
    "Lib842.Props.C37_at_most_once",
    "Lib842.Props.C37_refused"
   ],
   "note": "Blocks decompressed = blocks pushed, as multisets, when a non-cancelled operation reports success; never more often than pushed in any reachable state."
  },
  {
   "property": "C38",
   "status": "partial",
   "theorems": [
    "Lib842.Props.C38_never_reports",
    "Lib842.Props.C38_reports_corrupt_data_false",
    "Lib842.Props.C38_reports_partial",
    "Lib842.Props.C38_debug_partial"
   ],
   "note": "False in release builds: handle_block ignores the error codes of single chunks (C38_reports_corrupt_data_false; C38_never_reports shows the trivial chunked functions can never cause a report). Proved: what is reported (C38_reports_partial) and that debug builds abort instead (C38_debug_partial)."
  },
  {
   "property": "C39",
   "status": "partial",
   "theorems": [
    "Lib842.Props.C39_fine_round_trip_partial",
    "Lib842.Props.C39_full_round_trip_partial",
    "Lib842.Props.C39_compression_succeeds",
    "Lib842.Props.C39_handle_total",
    "Lib842.Props.C39_run_exists",
    "Lib842.Props.C39_round_trip_partial"
   ],
   "note": "Proved for release builds (NDEBUG), and for other builds if no chunk is stored raw; otherwise a build with assertions aborts (C36_block_round_trip_debug). Every buffer, block order, interleaving, number of threads. C39_fine_round_trip_partial: the same when every access of the threads and users of both streams is a step of its own."
  },
  {
   "property": "C40",
   "status": "proved",
   "theorems": [
    "Lib842.Props.C40_barrier_safe",
    "Lib842.Props.C40_barrier_releases"
   ],
   "note": ""
  },
  {
   "property": "C41",
   "status": "proved",
   "theorems": [
    "Lib842.Props.C41_interrupt",
    "Lib842.Props.C41_stays"
   ],
   "note": ""
  },
  {
   "property": "C42",
   "status": "proved",
   "theorems": [
    "Lib842.Props.C42_latch_safe",
    "Lib842.Props.C42_latch_releases"
   ],
   "note": ""
  },
  {
   "property": "C43",
   "status": "proved",
   "theorems": [
    "Lib842.Props.C43_ocl_accepts_format",
    "Lib842.Props.C43_ocl_success_is_decoding",
    "Lib842.Props.C43_ocl_agrees_with_opt",
    "Lib842.Props.C43_ocl_launch"
   ],
   "note": "decompress_core accepts every hardware stream (whole words) with the right result, success always is the decoding of the op sequence, and a launch restores all chunks for every order of the work items."
  },
  {
   "property": "C44",
   "status": "partial",
   "theorems": [
    "Lib842.Props.C44_ocl_any_crc",
    "Lib842.Props.C44_ocl_crc_false"
   ],
   "note": "False as stated: proved that the decoder accepts every CRC value, with a concrete witness."
  },
  {
   "property": "C45",
   "status": "partial",
   "theorems": [
    "Lib842.Props.C45_maybe_false",
    "Lib842.Props.C45_maybe_partial",
    "Lib842.Props.C45_launch_partial"
   ],
   "note": "False for an incompressible chunk that begins with the marker (witness). Proved for all other chunks, per work item and for a whole launch in any order with any shuffle map."
  },
  {
   "property": "C46",
   "status": "partial",
   "theorems": [
    "Lib842.Props.C46_inplace_false",
    "Lib842.Props.C46_inplace_partial",
    "Lib842.Props.C46_room_small",
    "Lib842.Props.C46_small_partial",
    "Lib842.Props.C46_640_partial",
    "Lib842.Props.C46_silent_false"
   ],
   "note": "False (witnesses: an 832-byte chunk as the host packs it, restored out of place but not in place; a 648-byte chunk that comes back wrong in place while success is reported, C46_silent_false). Proved under the exact condition that the output does not overtake the fetched part of the stream; this holds for every chunk the host packs whose stream has at most 616 bytes (C46_small_partial), hence for all chunks of at most 640 bytes (C46_640_partial); the 648-byte witness has a stream of 624 bytes, so neither bound can be raised."
  },
  {
   "property": "C47",
   "status": "partial",
   "theorems": [
    "Lib842.Props.C47_cuda_thread",
    "Lib842.Props.C47_cuda_launch_wraps",
    "Lib842.Props.C47_cuda_launch_partial",
    "Lib842.Props.C47_large_launch_false",
    "Lib842.Props.C47_cuda_launch_full_partial",
    "Lib842.Props.C47_cuda_round_trip_partial"
   ],
   "note": "C47_cuda_thread holds for every valid stream. False as stated for launches of more than 2^24 threads (C47_large_launch_false): the products with chunk_num are of type unsigned int, so thread 2^24 decodes the stream of chunk 0. The launch theorems are for up to 2^24 threads; C47_cuda_launch_wraps determines the result for up to 2^25. Shifts by 64 in read_bits follow PTX (undefined in C++). Threads run one after the other in any order; for true interleavings see C83."
  },
  {
   "property": "C48",
   "status": "partial",
   "theorems": [
    "Lib842.Props.C48_hls_tokens",
    "Lib842.Props.C48_hls_total",
    "Lib842.Props.C48_hls_buffer",
    "Lib842.Props.C48_hls_short_false"
   ],
   "note": "Proved for every stream of the hardware format and every alignment, and for arbitrary input (termination, no blocking, buffer bounds, exact bit count before every iteration). Not so for the software-only short-data op, which the tokenizer does not know (negation proved, C48_hls_short_false). When the input is cut short, the bit count wraps in the last iteration, after which it is not used."
  },
  {
   "property": "C49",
   "status": "partial",
   "theorems": [
    "Lib842.Props.C49_static_log2_partial",
    "Lib842.Props.C49_static_log2_false"
   ],
   "note": "False for 1, 2 and 3 (negation proved); proved for 4 .. 2^32-1."
  },
  {
   "property": "C50",
   "status": "proved",
   "theorems": [
    "Lib842.Props.C50_value",
    "Lib842.Props.C50_string",
    "Lib842.Props.C50_value_trigraphs",
    "Lib842.Props.C50_unique",
    "Lib842.Props.C50_instance",
    "Lib842.Props.C50_trigraphs_false",
    "Lib842.Props.C50_nul_false"
   ],
   "note": "Value of the literal under translation phases 2-6 (and phase 1 trigraphs for files without ??); octal/hex escapes are never emitted. Built configuration is gnu11, without trigraphs; the counterexample for ISO mode is C50_trigraphs_false."
  },
  {
   "property": "C51",
   "status": "proved",
   "theorems": [
    "Lib842.Props.C51_find_stored",
    "Lib842.Props.C51_find_truncated",
    "Lib842.Props.C51_find_sound",
    "Lib842.Props.C51_stored_once",
    "Lib842.Props.C51_build_from_cache",
    "Lib842.Props.C51_build_twice",
    "Lib842.Props.C51_instance"
   ],
   "note": "Storable: lengths fit into size_t and memory; a crash leaves a prefix. Files with zero-filled tails or concurrent writers are covered only by C51_find_sound (arbitrary contents)."
  },
  {
   "property": "C52",
   "status": "proved",
   "theorems": [
    "Lib842.Props.C52_rejects_iff",
    "Lib842.Props.C52_request_faithful",
    "Lib842.Props.C52_results",
    "Lib842.Props.C52_single"
   ],
   "note": "CRYPTODEV_COMP_MAX_CHUNKS (a header outside the repository) is a parameter below 2^32; the kernel driver is an arbitrary function."
  },
  {
   "property": "C53",
   "status": "proved",
   "theorems": [
    "Lib842.Props.C53_ctx_init",
    "Lib842.Props.C53_thread_holds",
    "Lib842.Props.C53_thread_exit",
    "Lib842.Props.C53_reused"
   ],
   "note": "For every environment (results of system calls may depend on the whole history); contexts of threads that run one after the other."
  },
  {
   "property": "C54",
   "status": "partial",
   "theorems": [
    "Lib842.Props.C54_reports_key_failure_false",
    "Lib842.Props.C54_partial"
   ],
   "note": "False: create_thread_ctx_key resets thread_ctx_key_err to 0 after setting it (C54_reports_key_failure_false). C54_partial: if the key can be created every call returns a context or an error."
  },
  {
   "property": "C55",
   "status": "partial",
   "theorems": [
    "Lib842.Props.C55_arguments_false",
    "Lib842.Props.C55_arguments_partial"
   ],
   "note": "False: returnValues and chunkShuffleMap are swapped between declaration and definition. All other arguments proved consistent."
  },
  {
   "property": "C56",
   "status": "partial",
   "theorems": [
    "Lib842.Props.C56_wrapper_is_host",
    "Lib842.Props.C56_rest_overwritten",
    "Lib842.Props.C56_one_chunk_iff",
    "Lib842.Props.C56_wrapper_false",
    "Lib842.Props.C56_wrapper_partial"
   ],
   "note": "False above 99999 bytes (undefined behaviour proved for every longer input). Proved for 1..99999 bytes. The function is proved to be CLHostDecompressor::decompress with arrays of one element (C56_wrapper_is_host); the rest of the output buffer is overwritten with device memory (C56_rest_overwritten)."
  },
  {
   "property": "C57",
   "status": "partial",
   "theorems": [
    "Lib842.Props.C57_ocl_bounds_false",
    "Lib842.Props.C57_ocl_bounds_partial",
    "Lib842.Props.C57_ocl_errors"
   ],
   "note": "False in four ways (witnesses). Proved in bounds for every input when whole input words are present and two bytes follow the output capacity."
  },
  {
   "property": "C58",
   "status": "proved",
   "theorems": [
    "Lib842.Props.C58_alignment_iff",
    "Lib842.Props.C58_required_alignment"
   ],
   "note": "For masks of the form 2^k-1."
  },
  {
   "property": "C59",
   "status": "partial",
   "theorems": [
    "Lib842.Props.C59_cache_not_fatal_partial",
    "Lib842.Props.C59_own_file_not_fatal_partial",
    "Lib842.Props.C59_unwritable_false",
    "Lib842.Props.C59_corrupt_false"
   ],
   "note": "False as stated: set() throws after a successful build if the file cannot be written, and a length beyond the available memory in the file throws bad_alloc/length_error, not caught. Proved if neither occurs, and for every file the library wrote itself, complete or cut."
  },
  {
   "property": "C60",
   "status": "partial",
   "theorems": [
    "Lib842.Props.C60_status_partial",
    "Lib842.Props.C60_usage",
    "Lib842.Props.C60_missing_input_false",
    "Lib842.Props.C60_no_output_false"
   ],
   "note": "False as stated: failure to open either file is not reported. Proved if both open."
  },
  {
   "property": "C61",
   "status": "partial",
   "theorems": [
    "Lib842.Props.C61_contracts",
    "Lib842.Props.C61_benchmark",
    "Lib842.Props.C61_success_benchmark",
    "Lib842.Props.C61_success_simple",
    "Lib842.Props.C61_program_partial",
    "Lib842.Props.C61_program_test_string",
    "Lib842.Props.C61_program_empty_false"
   ],
   "note": "False for an empty file (C61_program_empty_false: failure with the serial implementation, undefined behaviour with the optimised one and aligned buffers). Proved for every non-empty readable file below 2^63 bytes and for the built-in test string, every order of the OpenMP batches. OpenMP iterations are sequential in arbitrary order."
  },
  {
   "property": "C63",
   "status": "partial",
   "theorems": [
    "Lib842.Props.C63_decompress_same_partial",
    "Lib842.Props.C63_compress_same_partial",
    "Lib842.Props.C63_round_trip_partial",
    "Lib842.Props.C63_decompress_standard_false",
    "Lib842.Props.C63_compress_standard_false"
   ],
   "note": "False by the C++ standard: both directions shift 64-bit words by 64 (C63_decompress_standard_false, C63_compress_standard_false). Proved for every meaning of such shifts in which x >> 64 has some value (decompressor) and 0 << 64 is 0 (compressor); both hold on x86-64, ARM and POWER."
  },
  {
   "property": "C64",
   "status": "partial",
   "theorems": [
    "Lib842.Props.C64_opt_uses_references_partial",
    "Lib842.Props.C64_sw_not_longer",
    "Lib842.Props.C64_same_size_partial",
    "Lib842.Props.C64_same_size_false",
    "Lib842.Props.C64_fallback_fits",
    "Lib842.Props.C64_collision"
   ],
   "note": "False as stated: after a zero group the group before it cannot be found any more, since the tables are updated with stale hashes (C64_same_size_false: 24 instead of 16 bytes without any collision). Proved with the additional condition that no zero group follows the value (per reference, C64_opt_uses_references_partial; for whole inputs, C64_same_size_partial); never shorter than sw842 is proved without conditions."
  },
  {
   "property": "C65",
   "status": "partial",
   "theorems": [
    "Lib842.Props.C65_no_data_race_false",
    "Lib842.Props.C65_comp_only_quit_partial",
    "Lib842.Props.C65_decomp_only_quit_partial",
    "Lib842.Props.C65_comp_start_writes",
    "Lib842.Props.C65_decomp_start_writes"
   ],
   "note": "False as stated: the workers test _quit without the mutex, which the destructor writes (C65_no_data_race_false, for every number of threads). Proved for all other members: a race exists in a reachable state exactly if a worker is at `while (!_quit)` and the destructor may be called; the parameters written by start outside the mutex are not accessed by any worker until start takes the mutex."
  },
  {
   "property": "C66",
   "status": "proved",
   "theorems": [
    "Lib842.Props.C66_lower_bound",
    "Lib842.Props.C66_sw_lower_bound",
    "Lib842.Props.C66_opt_lower_bound",
    "Lib842.Props.C66_incompressible",
    "Lib842.Props.C66_sw_exact",
    "Lib842.Props.C66_opt_exact",
    "Lib842.Props.C66_worst_case_attained"
   ],
   "note": "Lower bound for every stream of the format, exact size for data all of whose words are new (both compressors), and such data of every length."
  },
  {
   "property": "C67",
   "status": "partial",
   "theorems": [
    "Lib842.Props.C67_olen_partial",
    "Lib842.Props.C67_always_partial",
    "Lib842.Props.C67_maybe_partial",
    "Lib842.Props.C67_inplace_partial",
    "Lib842.Props.C67_olen_false",
    "Lib842.Props.C67_program_partial",
    "Lib842.Props.C67_program_test_string",
    "Lib842.Props.C67_maybe_false"
   ],
   "note": "False as stated: *olen is accumulated in an int (C67_olen_false, 30391 chunks), and MAYBE_COMPRESSED_CHUNKS does not restore an incompressible chunk that begins with the marker (C67_maybe_false). Proved: the default format restores every file and the program succeeds; the packed formats do under the conditions of C45/C46; *olen is right below 2^31. Missing: nothing that is true of the code."
  },
  {
   "property": "C68",
   "status": "partial",
   "theorems": [
    "Lib842.Props.C68_result",
    "Lib842.Props.C68_terminates",
    "Lib842.Props.C68_joined",
    "Lib842.Props.C68_race_false",
    "Lib842.Props.C68_program_partial",
    "Lib842.Props.C68_program_test_string",
    "Lib842.Props.C68_program_empty_false"
   ],
   "note": "False as stated: data race on comp_error for every input of at least one block (C68_race_false), failure on an empty file (C68_program_empty_false). Proved: result, termination and joining for every interleaving, and success of the whole program (with NDEBUG) on every nonempty file for both software implementations. Missing: nothing that is true of the code."
  },
  {
   "property": "C69",
   "status": "proved",
   "theorems": [
    "Lib842.Props.C69_comp_stops",
    "Lib842.Props.C69_comp_error",
    "Lib842.Props.C69_decomp_stops",
    "Lib842.Props.C69_comp_stops_tight",
    "Lib842.Props.C69_comp_error_tight"
   ],
   "note": "Bounds shown to be reached (C69_comp_stops_tight, C69_comp_error_tight). A failed block in the decompression stream that has not led to a refused push yet does not bound the blocks begun by other threads (exDLate)."
  },
  {
   "property": "C70",
   "status": "partial",
   "theorems": [
    "Lib842.Props.C70_shortest_partial",
    "Lib842.Props.C70_size",
    "Lib842.Props.C70_size_no_waste",
    "Lib842.Props.C70_ratio",
    "Lib842.Props.C70_ratio_tight",
    "Lib842.Props.C70_shortest_false"
   ],
   "note": "False as stated: a run of two or three zero groups is coded with a repeat op that is longer than zeros ops (C70_shortest_false: 32 bytes where 24 suffice). Proved: the distance to the shortest stream is exactly zeroWaste bits, the minimum is attained, no loss without such runs, and at most 29/23 in general, a factor that data of every size reaches up to a constant (C70_ratio_tight)."
  },
  {
   "property": "C71",
   "status": "partial",
   "theorems": [
    "Lib842.Props.C71_memory_partial",
    "Lib842.Props.C71_result",
    "Lib842.Props.C71_memory_false"
   ],
   "note": "False as stated: a failed malloc is not checked and leads to a null dereference (C71_memory_false). Proved for every input and buffer if there is room for 2049 blocks: no use after free, no double free, no leak, same result as the model without memory management. Blocks allocated inside uthash are not modelled."
  },
  {
   "property": "C72",
   "status": "proved",
   "theorems": [
    "Lib842.Props.C72_bound",
    "Lib842.Props.C72_reached",
    "Lib842.Props.C72_sw",
    "Lib842.Props.C72_opt",
    "Lib842.Props.C72_ocl",
    "Lib842.Props.C72_sw_capacity",
    "Lib842.Props.C72_opt_capacity",
    "Lib842.Props.C72_decoders_reach"
   ],
   "note": "For the format, sw842_decompress, optsw842_decompress (any alignment) and the OpenCL decoder; reached exactly for every stream size 8+88m."
  },
  {
   "property": "C73",
   "status": "proved",
   "theorems": [
    "Lib842.Props.C73_sw",
    "Lib842.Props.C73_opt",
    "Lib842.Props.C73_ocl",
    "Lib842.Props.C73_opt_final",
    "Lib842.Props.C73_sw_final",
    "Lib842.Props.C73_opt_retry",
    "Lib842.Props.C73_opt_nospace_exact",
    "Lib842.Props.C73_opt_verdict",
    "Lib842.Props.C73_opt_nospace_mono",
    "Lib842.Props.C73_opt_room",
    "Lib842.Props.C73_ocl_nospace_exact",
    "Lib842.Props.C73_ocl_verdict",
    "Lib842.Props.C73_ocl_opt_nospace",
    "Lib842.Props.C73_sw_nospace_exact",
    "Lib842.Props.C73_sw_verdict",
    "Lib842.Props.C73_sw_room",
    "Lib842.Props.C73_sw_nospace_mono"
   ],
   "note": "For sw842_decompress, optsw842_decompress (aligned; otherwise it is the serial one) and the OpenCL decoder. The serial decoder may also report -ENOSPC for valid streams with more than UINT_MAX bytes of data, and its answer is only final where it does not leave its buffer (C05). Exactly when optsw842_decompress reports -ENOSPC: C73_opt_nospace_exact, C73_opt_verdict. C73_sw_nospace_exact, C73_sw_verdict: the same exact account for sw842_decompress, whose five outcomes (success, -ENOSPC, -EOVERFLOW, -EINVAL, undefined) are each tied to a condition on the input. C73_ocl_nospace_exact, C73_ocl_verdict: the OpenCL decoder, given an output object in which its look at two 16-bit words stays inside (C57)."
  },
  {
   "property": "C74",
   "status": "proved",
   "theorems": [
    "Lib842.Props.C74_default",
    "Lib842.Props.C74_same",
    "Lib842.Props.C74_round_trip",
    "Lib842.Props.C74_ends",
    "Lib842.Props.C74_unchecked_ub",
    "Lib842.Props.C74_unchecked_depends_on_buffer"
   ],
   "note": "C74_unchecked_ub and C74_unchecked_depends_on_buffer show what the checks are needed for: undersized buffers, truncated streams, references to bytes not written yet."
  },
  {
   "property": "C75",
   "status": "partial",
   "theorems": [
    "Lib842.Props.C75_decodes",
    "Lib842.Props.C75_round_trip_partial",
    "Lib842.Props.C75_round_trip_false",
    "Lib842.Props.C75_not_interchangeable",
    "Lib842.Props.C75_damage_unnoticed"
   ],
   "note": "False as stated (C75_round_trip_false): for unaligned buffers the decompressor falls back to the serial version, which always expects a CRC; a stream written without CRC from aligned buffers cannot be decompressed to an unaligned one. Proved for an aligned decompressor, or two unaligned calls."
  },
  {
   "property": "C76",
   "status": "partial",
   "theorems": [
    "Lib842.Props.C76_contract",
    "Lib842.Props.C76_outcome",
    "Lib842.Props.C76_round_trip_partial",
    "Lib842.Props.C76_large_file_false",
    "Lib842.Props.C76_unequal_nodes_false",
    "Lib842.Props.C76_empty_file_false",
    "Lib842.Props.C76_below_4GiB_false",
    "Lib842.Props.C76_2GiB_false",
    "Lib842.Props.C76_success_sound",
    "Lib842.Props.C76_next_pow2",
    "Lib842.Props.C76_idle_cpus_false"
   ],
   "note": "False as stated: undefined behaviour for an empty file (C76_empty_file_false) and whenever the nodes have different numbers of threads (C76_unequal_nodes_false); a file of 4 GiB or more is reported as successful after only its length modulo 2^32 has been processed (C76_large_file_false); with fewer worker threads than CPUs a correct codec is reported as failing (C76_idle_cpus_false). Proved for non-empty files below 2 GiB on machines with equal nodes; C76_outcome determines the outcome in all cases with a positive file_length. With a negative file_length (2 GiB to 4 GiB modulo 4 GiB) the programs end for want of memory (C76_2GiB_false) or go out of bounds (C76_below_4GiB_false)."
  },
  {
   "property": "C77",
   "status": "partial",
   "theorems": [
    "Lib842.Props.C77_contract",
    "Lib842.Props.C77_outcome_default",
    "Lib842.Props.C77_round_trip_partial",
    "Lib842.Props.C77_test_string",
    "Lib842.Props.C77_large_file_false",
    "Lib842.Props.C77_empty_file_false",
    "Lib842.Props.C77_success_sound"
   ],
   "note": "False as stated: undefined behaviour for an empty file (C77_empty_file_false); without USE_UNIFIED_MEM a file of more than 16 GiB that does not repeat its beginning makes the sample report a failure of a correct codec (C77_large_file_false), because the kernel's offsets are 32-bit; the exit status is 0 even then. Proved for non-empty files up to 16 GiB, with unified memory for all lengths below 2^63; C77_outcome_default determines the outcome up to 32 GiB. USE_STREAMS does not compile and is not modelled."
  },
  {
   "property": "C78",
   "status": "partial",
   "theorems": [
    "Lib842.Props.C78_outcome",
    "Lib842.Props.C78_spread_partial",
    "Lib842.Props.C78_whole_node",
    "Lib842.Props.C78_memory_only_node_false",
    "Lib842.Props.C78_sparse_cpus_false"
   ],
   "note": "False as stated: a node with memory but without CPUs ends the spreading at its place (C78_memory_only_node_false), and CPUs numbered at or above get_nprocs() are never used (C78_sparse_cpus_false). Proved if every node with usable memory has a usable CPU with a number below the number of CPUs; C78_outcome determines the outcome in all cases with NUMA available. pthread_setaffinity_np by its documented behaviour."
  },
  {
   "property": "C79",
   "status": "partial",
   "theorems": [
    "Lib842.Props.C79_one_thread",
    "Lib842.Props.C79_isolated_partial",
    "Lib842.Props.C79_idle_holds",
    "Lib842.Props.C79_distinct",
    "Lib842.Props.C79_uses_stored",
    "Lib842.Props.C79_released",
    "Lib842.Props.C79_defined",
    "Lib842.Props.C79_key_failure_false",
    "Lib842.Props.C79_implementation_race_false",
    "Lib842.Props.C79_implementation_changes_false",
    "Lib842.Props.C79_alignment_positive",
    "Lib842.Props.C79_implementation_partial"
   ],
   "note": "False as stated: get_hw842_implementation fills in the alignments without synchronisation (C79_implementation_race_false, C79_implementation_changes_false), and a failure to create the key is undefined behaviour (C79_key_failure_false, see C54). Proved for every interleaving if the key can be created: isolation, distinct descriptors, nothing left after the end, no undefined behaviour. Proved for the table of functions if one call has been completed before. Assumption: the system hands out only descriptors, sessions and memory that nobody holds, and releases them also if it reports an error."
  },
  {
   "property": "C80",
   "status": "partial",
   "theorems": [
    "Lib842.Props.C80_no_sizes_false",
    "Lib842.Props.C80_launch_partial",
    "Lib842.Props.C80_host_partial",
    "Lib842.Props.C80_host_no_arrays"
   ],
   "note": "False as stated: without the array of output sizes, called optional, a chunk that decodes to more than the chunk size overwrites its neighbour, and success is reported for both (C80_no_sizes_false). Proved with both arrays (format ALWAYS_COMPRESSED_CHUNKS), for a launch and for the host function, for all contents, shuffle maps and orders; a chunk that is not a valid stream needs two readable bytes after its capacity (see C57)."
  },
  {
   "property": "C81",
   "status": "partial",
   "theorems": [
    "Lib842.Props.C81_any_device_false",
    "Lib842.Props.C81_chosen",
    "Lib842.Props.C81_found_partial",
    "Lib842.Props.C81_queue_device"
   ],
   "note": "False as stated: a platform whose query fails hides the devices of the platforms after it, and accelerators are not considered (C81_any_device_false). Proved: what is chosen is always as described (C81_chosen, C81_queue_device), and if no query fails a GPU or CPU is found iff there is one (C81_found_partial)."
  },
  {
   "property": "C82",
   "status": "partial",
   "theorems": [
    "Lib842.Props.C82_one_item",
    "Lib842.Props.C82_race_false",
    "Lib842.Props.C82_alone_partial",
    "Lib842.Props.C82_launch_partial",
    "Lib842.Props.C82_results_partial"
   ],
   "note": "False as stated: the work item of a chunk that is not a stream for its slot reads two bytes of the next slot, while the work item of that one may store them, a data race (C82_race_false). Proved: the accesses are those of the kernel (C82_one_item); if each work item stays within its slot, in any of the formats, there is no race and the results are those of the items alone, in every interleaving (C82_alone_partial); with both arrays of sizes this holds for all chunks that are valid or have two bytes more room than their capacity (C82_launch_partial), and in the other case the results still do not depend on the interleaving (C82_results_partial)."
  },
  {
   "property": "C83",
   "status": "partial",
   "theorems": [
    "Lib842.Props.C83_one_thread",
    "Lib842.Props.C83_launch_partial",
    "Lib842.Props.C83_alone_partial",
    "Lib842.Props.C83_large_launch_false",
    "Lib842.Props.C83_corrupt_false"
   ],
   "note": "False as stated: with more than 2^25 threads two of them store to the same chunk (C83_large_launch_false, for every input whose first chunk is valid), and a corrupt chunk reads that of another thread (C83_corrupt_false). Proved: the accesses are those of the kernel (C83_one_thread); for up to 2^24 threads with valid chunks there is no race and every chunk is restored, in every interleaving (C83_launch_partial); the same for arbitrary input if each thread keeps to its slot (C83_alone_partial)."
  },
  {
   "property": "C84",
   "status": "partial",
   "theorems": [
    "Lib842.Props.C84_single",
    "Lib842.Props.C84_condense_partial",
    "Lib842.Props.C84_raw_false",
    "Lib842.Props.C84_batch_false",
    "Lib842.Props.C84_batch_few_false",
    "Lib842.Props.C84_success",
    "Lib842.Props.C84_sw_false",
    "Lib842.Props.C84_single_reports"
   ],
   "note": "False as stated with CONDENSE: a chunk that does not compress makes memcpy copy SIZE_MAX bytes (C84_raw_false), and with batches of 16 chunks the chunks are looked for at a distance of 64 KiB in the condensed buffer, beyond its end (C84_batch_false, C84_batch_few_false; for the serial implementation C84_sw_false). Proved: single chunks without CONDENSE work on every input (C84_single); single chunks with CONDENSE work if every chunk compresses (C84_condense_partial); a reported success is right in all variants (C84_success). With compressors and decompressors that fail in any way but stay within their buffers, the benchmark with single chunks returns and reports success only for restored data (C84_single_reports)."
  },
  {
   "property": "C85",
   "status": "proved",
   "theorems": [
    "Lib842.Props.C85_two_bits_iff",
    "Lib842.Props.C85_two_bits_detected",
    "Lib842.Props.C85_never_returned"
   ],
   "note": "Exact criterion for all lengths (C85_two_bits_iff); minimal period of the register proved to be 2^32-1."
  },
  {
   "property": "C86",
   "status": "partial",
   "theorems": [
    "Lib842.Props.C86_leading_zeros",
    "Lib842.Props.C86_zero_run_false",
    "Lib842.Props.C86_same_length_false",
    "Lib842.Props.C86_crc_noticed",
    "Lib842.Props.C86_noticed_partial"
   ],
   "note": "False as stated: the CRC does not see leading zeros (C86_leading_zeros), so a wrong repeat count of a run of zeros changes only the length (C86_zero_run_false); a wrong bit in a reference can replace a group by another one that differs by a multiple of the polynomial (C86_same_length_false, a stream of sw842_compress). Proved: a wrong bit in the CRC is always noticed (C86_crc_noticed); for damage that does not move the end marker, data of the right length is the original or differs in at least three bits spread over more than 32 positions (C86_noticed_partial)."
  },
  {
   "property": "C87",
   "status": "proved",
   "theorems": [
    "Lib842.Props.C87_enough",
    "Lib842.Props.C87_needed",
    "Lib842.Props.C87_exact",
    "Lib842.Props.C87_bound",
    "Lib842.Props.C87_tight",
    "Lib842.Props.C87_counting",
    "Lib842.Props.C87_counting_needed"
   ],
   "note": "Exact for every call that succeeds with enough memory (C87_exact); a call that ends with -ENOSPC needs at most that much (C87_enough). Memory that uthash allocates for itself is not counted."
  },
  {
   "property": "C88",
   "status": "partial",
   "theorems": [
    "Lib842.Props.C88_nonstrict_stream_valid",
    "Lib842.Props.C88_nonstrict_stream_restored",
    "Lib842.Props.C88_nonstrict_succeeds",
    "Lib842.Props.C88_nonstrict_chunk_size",
    "Lib842.Props.C88_nonstrict_kernel",
    "Lib842.Props.C88_nonstrict_round_trip_partial",
    "Lib842.Props.C88_nonstrict_mismatch_false",
    "Lib842.Props.C88_nonstrict_silent_false",
    "Lib842.Props.C88_strict_stream_false"
   ],
   "note": "False as stated: the kernel reads indices of 9, 8 and 7 bits, the compressor writes 8, 9 and 8, so a chunk with a reference is not restored (C88_nonstrict_mismatch_false), possibly without any error (C88_nonstrict_silent_false); streams of the strict compressor select rows outside the table (C88_strict_stream_false). Proved: the compressor's streams are valid for everything else (C88_nonstrict_stream_valid, _restored, _succeeds), the kernel decodes every stream of the format it is written for (C88_nonstrict_kernel), and chunks without repeated words are restored (C88_nonstrict_round_trip_partial)."
  },
  {
   "property": "C89",
   "status": "partial",
   "theorems": [
    "Lib842.Props.C89_default",
    "Lib842.Props.C89_lookahead_not_needed",
    "Lib842.Props.C89_complete_words",
    "Lib842.Props.C89_complete_words_differ",
    "Lib842.Props.C89_room",
    "Lib842.Props.C89_inplace_partial",
    "Lib842.Props.C89_room_small",
    "Lib842.Props.C89_inplace_false",
    "Lib842.Props.C89_no_errors_partial",
    "Lib842.Props.C89_no_errors_outcome",
    "Lib842.Props.C89_no_errors_false",
    "Lib842.Props.C89_no_crc",
    "Lib842.Props.C89_no_crc_same"
   ],
   "note": "Proved: no look-ahead buffer gives the same result for every input when the buffers differ (C89_lookahead_not_needed) and reads complete words only (C89_complete_words); without error handling every success stays the same (C89_no_errors_partial); DISABLE_CRC accepts exactly the op sequences with end marker (C89_no_crc, C89_no_crc_same). In place the look-ahead buffer is needed (C89_inplace_false); it can be left out when the output stays behind the words used (C89_inplace_partial). Without error handling 0 is the only return value (C89_no_errors_outcome) and the lengths are ignored (C89_no_errors_false). Missing: a necessary condition in place."
  },
  {
   "property": "C90",
   "status": "proved",
   "theorems": [
    "Lib842.Props.C90_bound",
    "Lib842.Props.C90_bound_tight",
    "Lib842.Props.C90_zero_groups",
    "Lib842.Props.C90_zero_groups_loss"
   ],
   "note": "Bound for all inputs (C90_bound); two groups that evict each other reach it up to a constant number of bytes for every number of repetitions, in calls shown to succeed (C90_bound_tight); exact size with every other group zero (C90_zero_groups), 74 bits per two groups where sw842 needs 18 (C90_zero_groups_loss)."
  },
  {
   "property": "C91",
   "status": "proved",
   "theorems": [
    "Lib842.Props.C91_compression",
    "Lib842.Props.C91_decompression",
    "Lib842.Props.C91_compression_trivial",
    "Lib842.Props.C91_decompression_trivial",
    "Lib842.Props.C91_sequential",
    "Lib842.Props.C91_benchmark",
    "Lib842.Props.C91_one_message",
    "Lib842.Props.C91_single_compression",
    "Lib842.Props.C91_single_decompression",
    "Lib842.Props.C91_condense",
    "Lib842.Props.C91_condense_raw"
   ],
   "note": "Small-step semantics with arbitrary scratch stores during calls. Compression and decompression loops for any chunked implementation that stays in its part (C91_compression, C91_decompression), for the chunked functions of the library (.._trivial), agreement with the sequential model of C61 (C91_sequential), the benchmark (C91_benchmark), at most one message for any implementation (C91_one_message), CHUNKS_PER_BATCH 1 (C91_single_*), CONDENSE (C91_condense; C91_condense_raw: undefined if a chunk is marked, as in C84)."
  },
  {
   "property": "C92",
   "status": "proved",
   "theorems": [
    "Lib842.Props.C92_opt_truncated_code",
    "Lib842.Props.C92_sw_never_wrong",
    "Lib842.Props.C92_opt_never_wrong",
    "Lib842.Props.C92_ocl_never_wrong",
    "Lib842.Props.C92_sw_torn",
    "Lib842.Props.C92_sw_truncated_exact",
    "Lib842.Props.C92_sw_truncated_code",
    "Lib842.Props.C92_opt_truncated"
   ],
   "note": "Never wrong data, for any stream of the format: C92_sw_never_wrong, C92_opt_never_wrong, C92_ocl_never_wrong. Safety and error codes for the output of sw842_compress: C92_sw_torn. Exactly when a truncated stream is accepted: C92_sw_truncated_exact, C92_opt_truncated. The error code of a truncated stream is -EOVERFLOW for the serial decompressor, -EINVAL for the optimised one: C92_sw_truncated_code, C92_opt_truncated_code."
  },
  {
   "property": "C93",
   "status": "partial",
   "theorems": [
    "Lib842.Props.C93_bench_partial",
    "Lib842.Props.C93_program_partial",
    "Lib842.Props.C93_single_chunks_partial",
    "Lib842.Props.C93_comp_stream_partial",
    "Lib842.Props.C93_decomp_stream_partial",
    "Lib842.Props.C93_iff",
    "Lib842.Props.C93_condense_false",
    "Lib842.Props.C93_implementations",
    "Lib842.Props.C93_hardware",
    "Lib842.Props.C93_powers",
    "Lib842.Props.C93_opt_preferred",
    "Lib842.Props.C93_tables"
   ],
   "note": "False for AIX (required 4096, preferred 128), for the hardware if pages are smaller than the alignment of the driver (C93_hardware; 64 KiB if the device cannot be opened), and for condensed data (C93_condense_false). Exact condition: C93_iff (required divides preferred); under it C93_bench_partial, C93_program_partial, C93_single_chunks_partial, C93_comp_stream_partial, C93_decomp_stream_partial. C93_implementations for the concrete values. C93_powers: the alignments are powers of two, as aligned_alloc wants. C93_opt_preferred: the preferred alignment is exactly what keeps optsw842_decompress from leaving the work to the serial version."
  },
  {
   "property": "C94",
   "status": "proved",
   "theorems": [
    "Lib842.Props.C94_sw",
    "Lib842.Props.C94_sw_recover",
    "Lib842.Props.C94_opt_recover",
    "Lib842.Props.C94_ocl_recover",
    "Lib842.Props.C94_opt_recover_output",
    "Lib842.Props.C94_cuda_recover"
   ],
   "note": "C94_sw (any stream of the format, in terms of ops), C94_sw_recover, C94_opt_recover, C94_opt_recover_output, C94_ocl_recover, C94_cuda_recover (in terms of bytes). For calls that return: a repeat op after short data can still make the serial decompressor read out of bounds (C05); the CUDA decoder checks nothing and is undefined for many damaged streams."
  },
  {
   "property": "C95",
   "status": "partial",
   "theorems": [
    "Lib842.Props.C95_sw_decompress",
    "Lib842.Props.C95_opt_decompress",
    "Lib842.Props.C95_opt_compress",
    "Lib842.Props.C95_sw_compress_clears",
    "Lib842.Props.C95_sw_compress_false",
    "Lib842.Props.C95_opt_compress_false",
    "Lib842.Props.C95_sw_compress_partial",
    "Lib842.Props.C95_opt_compress_partial"
   ],
   "note": "Proved for sw842_decompress, optsw842_decompress and optsw842_compress (aligned). False for sw842_compress and for optsw842_compress with unaligned buffers (C95_sw_compress_clears, C95_sw_compress_false, C95_opt_compress_false): the last store may have 8 bytes of which only 5 are in use. C95_sw_compress_partial, C95_opt_compress_partial: at most three bytes, which become zero."
  },
  {
   "property": "C96",
   "status": "proved",
   "theorems": [
    "Lib842.Props.C96_strict_hw",
    "Lib842.Props.C96_strict_exact",
    "Lib842.Props.C96_usual_refused"
   ],
   "note": "The configuration SW842_STRICT 1 of the serial compressor. The data must be at most 2^32-1 bytes long for the decompressors to restore it (C01)."
  },
  {
   "property": "C97",
   "status": "proved",
   "theorems": [
    "Lib842.Props.C97_sw_final",
    "Lib842.Props.C97_sw_incremental",
    "Lib842.Props.C97_sw_overflow_prefix",
    "Lib842.Props.C97_sw_overflow_ends",
    "Lib842.Props.C97_opt_final",
    "Lib842.Props.C97_opt_false"
   ],
   "note": "C97_sw_final is an equivalence. C97_opt_false: -EINVAL of the optimised decompressor for a stream cut to whole words becomes success with the rest."
  },
  {
   "property": "C98",
   "status": "partial",
   "theorems": [
    "Lib842.Props.C98_options_partial",
    "Lib842.Props.C98_options_classic_partial",
    "Lib842.Props.C98_locale_exact",
    "Lib842.Props.C98_locale_false",
    "Lib842.Props.C98_cache_key"
   ],
   "note": "False for programs that set a global locale with digit grouping (C98_locale_false: 65,536). C98_options_partial: true for every locale that writes no separator into the numbers, in particular the classic one (C98_options_classic_partial: all sizes, all formats). C98_locale_exact: exactly these."
  },
  {
   "property": "C99",
   "status": "proved",
   "theorems": [
    "Lib842.Props.C99_destroy",
    "Lib842.Props.C99_untouched",
    "Lib842.Props.C99_no_deadlock",
    "Lib842.Props.C99_atomic"
   ],
   "note": "C99_destroy, C99_untouched, C99_no_deadlock, C99_atomic (refinement to the latch of C42). The mutex and the condition variable themselves are assumed to work as C++ specifies."
  },
  {
   "property": "C100",
   "status": "partial",
   "theorems": [
    "Lib842.Props.C100_sw",
    "Lib842.Props.C100_opt",
    "Lib842.Props.C100_ocl",
    "Lib842.Props.C100_cuda_copies",
    "Lib842.Props.C100_cuda_false",
    "Lib842.Props.C100_cuda_partial"
   ],
   "note": "C100_sw, C100_opt, C100_ocl (separate buffers). False for CUDA: C100_cuda_copies, C100_cuda_false (on valid streams C47 gives it). What is left for CUDA is C100_cuda_partial: the size of buffer that suffices and the number of stored words depend on the input only, and what lies behind them is left alone; missing: the stored bytes may be old contents."
  },
  {
   "property": "C101",
   "status": "proved",
   "theorems": [
    "Lib842.Props.C101_safe",
    "Lib842.Props.C101_ends",
    "Lib842.Props.C101_no_deadlock",
    "Lib842.Props.C101_returns",
    "Lib842.Props.C101_atomic"
   ],
   "note": "C101_safe, C101_ends (termination measure), C101_no_deadlock, C101_returns, C101_atomic (the model of C40/C41 shows every behaviour)."
  },
  {
   "property": "C102",
   "status": "partial",
   "theorems": [
    "Lib842.Props.C102_sw_prefix",
    "Lib842.Props.C102_sw_prefix_any",
    "Lib842.Props.C102_sw_size_partial",
    "Lib842.Props.C102_sw_size_any",
    "Lib842.Props.C102_opt_prefix",
    "Lib842.Props.C102_opt_size",
    "Lib842.Props.C102_sw_size_false",
    "Lib842.Props.C102_tight"
   ],
   "note": "C102_sw_prefix, C102_sw_prefix_any, C102_tight, C102_sw_size_partial (whole groups), C102_sw_size_any (8 bytes more), C102_opt_prefix, C102_opt_size. False for prefixes that end inside a group (C102_sw_size_false)."
  },
  {
   "property": "C103",
   "status": "proved",
   "theorems": [
    "Lib842.Props.C103_same_traces",
    "Lib842.Props.C103_blocks_exactly_once",
    "Lib842.Props.C103_at_most_once",
    "Lib842.Props.C103_epoch_order",
    "Lib842.Props.C103_finalize_callback",
    "Lib842.Props.C103_nothing_after",
    "Lib842.Props.C103_start_alone",
    "Lib842.Props.C103_mutex",
    "Lib842.Props.C103_no_deadlock",
    "Lib842.Props.C103_terminates",
    "Lib842.Props.C103_calls_return",
    "Lib842.Props.C103_finalize_happens",
    "Lib842.Props.C103_quit"
   ],
   "note": "C103_same_traces and its consequences (C103_blocks_exactly_once, C103_at_most_once, C103_epoch_order, C103_finalize_callback, C103_nothing_after), C103_mutex, C103_start_alone, C103_no_deadlock, C103_terminates, C103_calls_return, C103_finalize_happens, C103_quit. The barrier's own accesses: C101."
  },
  {
   "property": "C104",
   "status": "proved",
   "theorems": [
    "Lib842.Props.C104_same_traces",
    "Lib842.Props.C104_blocks_exactly_once",
    "Lib842.Props.C104_at_most_once",
    "Lib842.Props.C104_refused",
    "Lib842.Props.C104_finalize_callback",
    "Lib842.Props.C104_nothing_after",
    "Lib842.Props.C104_right_callback",
    "Lib842.Props.C104_ptr",
    "Lib842.Props.C104_start_alone",
    "Lib842.Props.C104_front",
    "Lib842.Props.C104_no_abort",
    "Lib842.Props.C104_mutex",
    "Lib842.Props.C104_no_deadlock",
    "Lib842.Props.C104_terminates",
    "Lib842.Props.C104_calls_return",
    "Lib842.Props.C104_finalize_happens",
    "Lib842.Props.C104_quit"
   ],
   "note": "C104_same_traces and its consequences (C104_blocks_exactly_once, C104_at_most_once, C104_refused, C104_finalize_callback, C104_nothing_after), C104_right_callback, C104_ptr, C104_start_alone, C104_front, C104_no_abort, C104_mutex, C104_no_deadlock, C104_terminates, C104_calls_return, C104_finalize_happens, C104_quit. The barrier's own accesses: C101."
  },
  {
   "property": "C105",
   "status": "proved",
   "theorems": [
    "Lib842.Props.C105_window",
    "Lib842.Props.C105_tight",
    "Lib842.Props.C105_sw_resume",
    "Lib842.Props.C105_opt_resume",
    "Lib842.Props.C105_ocl_resume",
    "Lib842.Props.C105_sw_reach"
   ],
   "note": "C105_window (format), C105_tight, C105_sw_resume, C105_opt_resume, C105_ocl_resume, C105_sw_reach."
  },
  {
   "property": "C106",
   "status": "proved",
   "theorems": [
    "Lib842.Props.C106_unique_fill",
    "Lib842.Props.C106_count",
    "Lib842.Props.C106_sw_missed",
    "Lib842.Props.C106_opt_missed"
   ],
   "note": "C106_unique_fill, C106_count (the checksum), C106_sw_missed, C106_opt_missed (the decompressors)."
  },
  {
   "property": "C107",
   "status": "partial",
   "theorems": [
    "Lib842.Props.C107_memory_partial",
    "Lib842.Props.C107_two_needed",
    "Lib842.Props.C107_any_alignment",
    "Lib842.Props.C107_memory_false"
   ],
   "note": "C107_memory_partial (aligned, two blocks are enough, nothing leaks), C107_two_needed, C107_any_alignment, C107_memory_false: a failed malloc is not checked, a null pointer is used."
  },
  {
   "property": "C108",
   "status": "proved",
   "theorems": [
    "Lib842.Props.C108_sw_decompress_words",
    "Lib842.Props.C108_opt_decompress_words",
    "Lib842.Props.C108_sw_compress_words",
    "Lib842.Props.C108_opt_compress_words",
    "Lib842.Props.C108_opt_round_trip",
    "Lib842.Props.C108_round_trip",
    "Lib842.Props.C108_compress_in_bounds",
    "Lib842.Props.C108_ocl_core_words",
    "Lib842.Props.C108_ocl_item_words",
    "Lib842.Props.C108_ocl_accepts_format",
    "Lib842.Props.C108_cuda_thread_words",
    "Lib842.Props.C108_cuda_chunk_words",
    "Lib842.Props.C108_cuda_thread_decodes"
   ],
   "note": "C108_sw_decompress_words, C108_opt_decompress_words, C108_sw_compress_words, C108_opt_compress_words, C108_ocl_core_words, C108_ocl_item_words, C108_cuda_thread_words, C108_cuda_chunk_words: the models with bit vectors of the widths of the code equal those with natural numbers; C108_round_trip, C108_opt_round_trip, C108_compress_in_bounds, C108_ocl_accepts_format and C108_cuda_thread_decodes carry C01, C02, C04, C43 and C47 over.  The products with chunk_num in the CUDA kernel do wrap; that is part of Model/Cuda and of C47."
  },
  {
   "property": "C109",
   "status": "proved",
   "theorems": [
    "Lib842.Props.C109_comp_same_traces",
    "Lib842.Props.C109_comp_blocks_exactly_once",
    "Lib842.Props.C109_comp_epoch_order",
    "Lib842.Props.C109_comp_finalize_callback",
    "Lib842.Props.C109_comp_no_deadlock",
    "Lib842.Props.C109_comp_terminates",
    "Lib842.Props.C109_comp_calls_return",
    "Lib842.Props.C109_comp_finalize_happens",
    "Lib842.Props.C109_comp_quit",
    "Lib842.Props.C109_comp_lock_order",
    "Lib842.Props.C109_decomp_same_traces",
    "Lib842.Props.C109_decomp_blocks_exactly_once",
    "Lib842.Props.C109_decomp_finalize_callback",
    "Lib842.Props.C109_decomp_right_callback",
    "Lib842.Props.C109_decomp_no_deadlock",
    "Lib842.Props.C109_decomp_terminates",
    "Lib842.Props.C109_decomp_calls_return",
    "Lib842.Props.C109_decomp_finalize_happens",
    "Lib842.Props.C109_decomp_quit",
    "Lib842.Props.C109_decomp_lock_order"
   ],
   "note": "C109_comp_* and C109_decomp_*: the state in which the critical section of the barrier under way is brought to its end is a state of the models of C103 and C104; all other steps inside the barrier change nothing there and reduce a weight, so that traces, deadlock freedom, termination and inevitability carry over. C39_full_round_trip_partial is C39 for these models."
  },
  {
   "property": "C110",
   "status": "proved",
   "theorems": [
    "Lib842.Props.C110_hls_driver",
    "Lib842.Props.C110_hls_driver_total",
    "Lib842.Props.C110_hls_driver_injective"
   ],
   "note": "hlsDriver = hlsTokenize followed by the loop of main; C110_hls_driver for well-formed streams, _total for all input, _injective: nothing is lost."
  },
  {
   "property": "C111",
   "status": "proved",
   "theorems": [
    "Lib842.Props.C111_numa_safe",
    "Lib842.Props.C111_numa_progress",
    "Lib842.Props.C111_numa_outcome",
    "Lib842.Props.C111_numa_round_trip",
    "Lib842.Props.C111_numa_success_sound",
    "Lib842.Props.C111_numa_error_reported"
   ],
   "note": "Invariant over all interleavings: thread numbers are distinct, each thread stays within its chunks, finished chunks are compressed (restored), untouched ones are as before. C111_numa_outcome equates every completed execution with pgMain of C76. Files and machines for which the programs are wrong are in C76."
  },
  {
   "property": "C112",
   "status": "proved",
   "theorems": [
    "Lib842.Props.C112_result",
    "Lib842.Props.C112_valid_stream",
    "Lib842.Props.C112_failure",
    "Lib842.Props.C112_stable",
    "Lib842.Props.C112_constructed_once",
    "Lib842.Props.C112_bounded",
    "Lib842.Props.C112_finishes",
    "Lib842.Props.C112_safe",
    "Lib842.Props.C112_long_input_undefined",
    "Lib842.Props.C112_empty_input",
    "Lib842.Props.C112_valid_streams"
   ],
   "note": "C112_result reduces each call to the sequential model of C56; C112_valid_streams combines safety, progress and data for valid streams; that a call on its own is undefined for more than 99999 bytes (C56) is repeated as C112_long_input_undefined."
  },
  {
   "property": "C113",
   "status": "proved",
   "theorems": [
    "Lib842.Props.C113_chunked_round_trip",
    "Lib842.Props.C113_tables",
    "Lib842.Props.C113_software_pairs",
    "Lib842.Props.C113_aix"
   ],
   "note": "C113_chunked_round_trip holds for any two tables whose chunked functions belong to their single-chunk functions (ImplChunked) and whose single-chunk functions fit together (ImplPair); C113_tables, C113_software_pairs and C113_aix discharge these. Offsets of chunks are required to stay below 2^32, the case in which the code computes them correctly (C29)."
  },
  {
   "property": "C114",
   "status": "proved",
   "theorems": [
    "Lib842.Props.C114_hw_compresses",
    "Lib842.Props.C114_hw_decompresses",
    "Lib842.Props.C114_hw_error",
    "Lib842.Props.C114_hw_compress",
    "Lib842.Props.C114_hw_decompress",
    "Lib842.Props.C114_software_compresses",
    "Lib842.Props.C114_software_decompresses",
    "Lib842.Props.C114_hw_then_software",
    "Lib842.Props.C114_software_then_hw",
    "Lib842.Props.C114_hw_then_hw"
   ],
   "note": "What is expected of the device is stated as DriverCompresses and DriverDecompresses, in terms of the format (HwDecodes) and of the request of cryptodev; a device in software meets both (shown beside the theorems). The driver of the kernel is not modelled."
  },
  {
   "property": "C115",
   "status": "partial",
   "theorems": [
    "Lib842.Props.C115_default",
    "Lib842.Props.C115_decompress_same_partial",
    "Lib842.Props.C115_decompress_unchecked_partial",
    "Lib842.Props.C115_compress_same_partial",
    "Lib842.Props.C115_round_trip_partial",
    "Lib842.Props.C115_ends",
    "Lib842.Props.C115_invalid_op_accepted",
    "Lib842.Props.C115_short_data_ub",
    "Lib842.Props.C115_decompress_same_false"
   ],
   "note": "Missing: without error handling a branch-free decompressor does not behave like the other one on invalid streams. It executes the ops 26, 29 and 31, which do not exist or are not supported, where the other one returns -EINVAL: C115_invalid_op_accepted (accepted in spite of the CRC), C115_short_data_ub (undefined behaviour on a stream of the serial version), C115_decompress_same_false (the full statement refuted). The condition on the alignment without CRC and the assumption about shifts by 64 are those of C75 and C63, where the statements without them are refuted."
  },
  {
   "property": "C116",
   "status": "partial",
   "theorems": [
    "Lib842.Props.C116_text",
    "Lib842.Props.C116_shortest",
    "Lib842.Props.C116_distinct",
    "Lib842.Props.C116_trace_same_partial",
    "Lib842.Props.C116_memory_only_node_false",
    "Lib842.Props.C116_lines",
    "Lib842.Props.C116_first_lines"
   ],
   "note": "Missing: a node without a CPU, for which the trace itself is undefined behaviour (pop_back on an empty string), whereas without the trace such a node gives a warning: C116_memory_only_node_false. The texts (C116_text, C116_shortest, C116_distinct) are proved for all sets with a CPU, C116_lines for all machines whose nodes have CPUs."
  },
  {
   "property": "C117",
   "status": "proved",
   "theorems": [
    "Lib842.Props.C117_add_bits",
    "Lib842.Props.C117_next_bits",
    "Lib842.Props.C117_four_needed"
   ],
   "note": "The bound on the depth in the models (fuel) is the property here: with four the functions do what they do with any larger bound, and never exceed it. C117_four_needed: with three it is exceeded."
  },
  {
   "property": "C118",
   "status": "proved",
   "theorems": [
    "Lib842.Props.C118_sw_steps",
    "Lib842.Props.C118_opt_steps",
    "Lib842.Props.C118_sw_input",
    "Lib842.Props.C118_sw_exact",
    "Lib842.Props.C118_opt_exact",
    "Lib842.Props.C118_ocl_steps",
    "Lib842.Props.C118_ocl_exact",
    "Lib842.Props.C118_ocl_input",
    "Lib842.Props.C118_ocl_input_exact",
    "Lib842.Props.C118_opt_input",
    "Lib842.Props.C118_opt_input_exact"
   ],
   "note": "C118_sw_exact: for all data there is a stream of 2 n + 5 bytes that needs all of its bytes and more than n iterations. C118_opt_exact, C118_opt_input_exact: the same for the iterations and for the input of the optimised decompressor. C118_ocl_input, C118_ocl_input_exact: the input of the OpenCL decoder, for output buffers with two bytes more than the whole words of the room (as in C57, C73)."
  },
  {
   "property": "C119",
   "status": "proved",
   "theorems": [
    "Lib842.Props.C119_sw_run",
    "Lib842.Props.C119_opt_run",
    "Lib842.Props.C119_shortest",
    "Lib842.Props.C119_limit"
   ],
   "note": "runSize is the formula of the statement. The last part of the statement is C119_limit; for zero groups whose last repeat op covers one or two groups shorter op sequences exist (C70_shortest_false)."
  },
  {
   "property": "C120",
   "status": "proved",
   "theorems": [
    "Lib842.Props.C120_opt_lower",
    "Lib842.Props.C120_sw_size",
    "Lib842.Props.C120_relabel"
   ],
   "note": "The spec sizeBits is in SpecSize.lean. It also says that no match in a ring buffer is ever missed and no template worse than the best one is ever taken."
  },
  {
   "property": "C121",
   "status": "proved",
   "theorems": [
    "Lib842.Props.C121_two",
    "Lib842.Props.C121_pieces",
    "Lib842.Props.C121_unaligned",
    "Lib842.Props.C121_loss"
   ],
   "note": "Follows from the formula for the size (C120). C121_unaligned is the last sentence of the statement, C121_loss the 1800 bytes."
  }
 ]
}