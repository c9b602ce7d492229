{"id": "C01", "title": "sw842 round trip", "statement": "If sw842_compress succeeds on a buffer of at most UINT_MAX bytes, then sw842_decompress of exactly the produced bytes, into a buffer with at least the original length of space, succeeds and yields exactly the original bytes and length (no matter what garbage was in the destination buffers before).", "quantifier": "every input byte string of length <= 2^32-1, every output capacity for which compression succeeds, every decompression capacity >= the original length, every initial content of both output buffers, both host byte orders", "why_tests_cant": "The ring buffers wrap at 512/2048 bytes, templates interact with every bit alignment, and the repeat counter wraps at 64: the number of histories is unbounded.", "anchors": ["src/serial/842_compress.c:sw842_compress", "src/serial/842_decompress.c:sw842_decompress", "include/lib842/sw.h"]}
{"id": "C02", "title": "optsw842 round trip", "statement": "If optsw842_compress succeeds, then optsw842_decompress of exactly the produced bytes, into a buffer with at least the original length of space, succeeds and yields exactly the original bytes, for 8-byte-aligned as well as unaligned buffers.", "quantifier": "every non-empty input whose length is a multiple of 8, every alignment of the buffers, every capacity for which compression succeeds", "why_tests_cant": "The lossy hash tables make the chosen references depend on the whole history of the input; collisions, stale hash slots and ring wrap-around cannot be enumerated.", "anchors": ["src/serial_optimized/842_compress.cpp:optsw842_compress", "src/serial_optimized/842_decompress.cpp:optsw842_decompress"]}
{"id": "C03", "title": "Cross-implementation round trip", "statement": "What sw842_compress produces for an input whose length is a multiple of 8 is decompressed to the original by optsw842_decompress, and what optsw842_compress produces is decompressed to the original by sw842_decompress.", "quantifier": "every input of length a multiple of 8 (and <= UINT_MAX for the sw842 decompressor), every sufficient capacity", "why_tests_cant": "Two independently written bit readers/writers with different buffering granularity must agree on every bit offset and ring position.", "anchors": ["src/serial/842_compress.c:sw842_compress", "src/serial/842_decompress.c:sw842_decompress", "src/serial_optimized/842_compress.cpp:optsw842_compress", "src/serial_optimized/842_decompress.cpp:optsw842_decompress"]}
{"id": "C04", "title": "Compressors never touch memory outside the caller's buffers", "statement": "sw842_compress (any input) and optsw842_compress (any non-empty input) never read outside in[0,ilen) and never write outside out[0,*olen); internal tables are never indexed out of range, and no undefined shift happens.", "quantifier": "every input, every length, every output capacity including 0, every initial output content", "why_tests_cant": "A single over-wide store for one combination of bit offset, field width and remaining capacity corrupts the caller's memory; tests see only a few capacities.", "anchors": ["src/serial/842_compress.c:add_bits", "src/serial/842_compress.c:add_template", "src/serial/842_compress.c:update_hashtables", "src/serial_optimized/842_compress.cpp:optsw842_compress", "src/serial_optimized/bitstream.cpp"]}
{"id": "C05", "title": "sw842_decompress is memory safe on arbitrary input", "statement": "For an arbitrary (possibly hostile) compressed buffer, sw842_decompress never reads outside in[0,ilen), never writes outside out[0,*olen) and never reads outside out[0,*olen).", "quantifier": "every byte string given as compressed input, every output capacity", "why_tests_cant": "The hostile input space is infinite; the violating stream must combine a short-data op with a repeat op, which no compressor emits.", "anchors": ["src/serial/842_decompress.c:sw842_decompress", "src/serial/842_decompress.c:do_data", "src/serial/842_decompress.c:__do_index", "src/serial/842_decompress.c:next_bits"]}
{"id": "C06", "title": "optsw842_decompress is memory safe on arbitrary input", "statement": "For an arbitrary (possibly hostile) compressed buffer with 8-byte-aligned buffers, optsw842_decompress never reads outside in[0,ilen), never reads or writes outside out[0,*olen), and never performs an undefined shift.", "quantifier": "every byte string given as compressed input, every output capacity", "why_tests_cant": "The error flag is only checked after a whole template has been executed, so safety depends on what every template does after its first failing action.", "anchors": ["src/serial_optimized/842_decompress.cpp:optsw842_decompress", "src/serial_optimized/842_decompress.cpp:read_bits", "src/serial_optimized/842_decompress.cpp:do_index", "src/serial_optimized/842_decompress.cpp:do_data"]}
{"id": "C07", "title": "Compressed length contract", "statement": "On success a compressor sets *olen to a positive multiple of 8 that does not exceed the given capacity, and the produced stream (including its zero padding) depends only on the input, not on the prior contents of the output buffer.", "quantifier": "every input, capacity and initial output content for which sw842_compress / optsw842_compress succeeds", "why_tests_cant": "Wide stores and partial last bytes mix old buffer contents with new bits; a leak appears only for particular bit offsets.", "anchors": ["src/serial/842_compress.c:sw842_compress", "src/serial/842_compress.c:add_bits", "src/serial_optimized/842_compress.cpp:optsw842_compress", "src/serial_optimized/bitstream.cpp:stream_flush"]}
{"id": "C08", "title": "*olen is 0 after every failure", "statement": "Whenever sw842_compress, sw842_decompress, optsw842_compress or optsw842_decompress returns an error, *olen is 0, as the documentation of each function promises.", "quantifier": "every input, every capacity, every alignment, for each of the four functions", "why_tests_cant": "There are dozens of early returns; one that forgets the assignment is hit only for a special class of inputs.", "anchors": ["src/serial/842_compress.c:sw842_compress", "src/serial/842_decompress.c:sw842_decompress", "src/serial_optimized/842_compress.cpp:optsw842_compress", "src/serial_optimized/842_decompress.cpp:optsw842_decompress"]}
{"id": "C09", "title": "Decompression always terminates", "statement": "sw842_decompress and optsw842_decompress return after at most one loop iteration per 5 bits of input, for arbitrary input; so does a thread of the CUDA decoder, unless it accesses memory out of bounds within that many iterations.", "quantifier": "every byte string given as input, every capacity", "why_tests_cant": "Non-termination on a hostile stream cannot be excluded by running finitely many streams.", "anchors": ["src/serial/842_decompress.c:sw842_decompress", "src/serial_optimized/842_decompress.cpp:optsw842_decompress", "src/cuda/842_decompress.cu:cuda842_decompress"]}
{"id": "C10", "title": "Capacity exactness of the compressors", "statement": "For each input there is one fixed compressed byte string; compression succeeds with exactly this string whenever the capacity is at least its length and fails with -ENOSPC whenever it is smaller. No capacity in between produces anything else.", "quantifier": "every input (with compressed size <= UINT_MAX for sw842_compress), every capacity", "why_tests_cant": "The write routines take different splitting paths near the end of the buffer, for every combination of remaining bytes and bit offset.", "anchors": ["src/serial/842_compress.c:add_bits", "src/serial/842_compress.c:__split_add_bits", "src/serial/842_compress.c:sw842_compress", "src/serial_optimized/842_compress.cpp:optsw842_compress", "src/serial_optimized/bitstream.cpp:stream_write_word"]}
{"id": "C11", "title": "A swallowed write error never becomes a success", "statement": "The mid-stream repeat template of sw842_compress discards its error code; nevertheless, whenever any part of the stream could not be written the call as a whole returns -ENOSPC: success implies that the output is a complete 842 stream for the input.", "quantifier": "every input and every capacity", "why_tests_cant": "The failure only matters when the buffer ends inside one particular 11-bit template in the middle of the stream.", "anchors": ["src/serial/842_compress.c:sw842_compress (line 600)"]}
{"id": "C12", "title": "Worst-case compressed size", "statement": "Compression of n bytes always succeeds when the capacity is at least 8*ceil((69*floor(n/8) + (n mod 8 = 0 ? 0 : 8 + 8*(n mod 8)) + 37)/64) (and that is at most UINT_MAX for sw842): no input expands further.", "quantifier": "every input of every length n", "why_tests_cant": "The worst case ranges over all inputs.", "anchors": ["src/serial/842_compress.c:sw842_compress", "src/serial_optimized/842_compress.cpp:optsw842_compress", "src/serial/842_compress.c:comp_ops"]}
{"id": "C13", "title": "sw842_decompress accepts exactly the 842 format", "statement": "sw842_decompress succeeds with output d if and only if the input starts with a well-formed 842 bit stream (as described in 842.h, including the short-data extension) that decodes to d, followed by an end marker and the CRC of d, and d fits the capacity and UINT_MAX.", "quantifier": "every byte string given as input, every output capacity, for which no out-of-bounds read (C05) occurs", "why_tests_cant": "Equality of accepted language and of results over all bit strings.", "anchors": ["src/serial/842_decompress.c:sw842_decompress", "src/common/842.h"]}
{"id": "C14", "title": "optsw842_decompress accepts exactly the 842 format without short data", "statement": "With aligned buffers, optsw842_decompress succeeds with output d if and only if the input, cut to a whole number of 64-bit words, starts with a well-formed 842 bit stream without short-data op that decodes to d, followed by an end marker and the CRC of d, and d fits the capacity.", "quantifier": "every byte string given as input, every output capacity", "why_tests_cant": "Equality of accepted language and of results over all bit strings.", "anchors": ["src/serial_optimized/842_decompress.cpp:optsw842_decompress", "src/common/842.h"]}
{"id": "C15", "title": "The CRC gate", "statement": "If a decompressor succeeds, the 32 bits following the end marker are the CRC of the bytes it returned; consequently replacing the stored CRC of a valid stream by any other value makes sw842_decompress and optsw842_decompress fail with -EINVAL.", "quantifier": "every valid compressed stream and every wrong CRC value", "why_tests_cant": "2^32 wrong values for each of infinitely many streams.", "anchors": ["src/serial/842_decompress.c:sw842_decompress", "src/serial_optimized/842_decompress.cpp:optsw842_decompress", "src/common/crc32.h:crc32_be"]}
{"id": "C16", "title": "crc32_be computes the CRC-32 of its buffer", "statement": "crc32_be(0, buf, len) equals the bit-by-bit MSB-first CRC with polynomial 0x04c11db7 (zero init, no final xor) for every buffer, every length, every alignment of the buffer address and both byte orders.", "quantifier": "every byte string, every start address modulo 4, both endiannesses", "why_tests_cant": "The slicing-by-8 code has an alignment prologue, an 8-byte loop and a tail; the combination with arbitrary data is unbounded.", "anchors": ["src/common/crc32.h:crc32_be", "src/common/crc32.h:crc32_body", "src/common/crc32table.h"]}
{"id": "C17", "title": "The shipped CRC tables are the generated ones", "statement": "Every one of the 8x256 entries shipped in crc32table.h equals the value the generator computes and equals the mathematical definition (CRC of the byte followed by k zero bytes).", "quantifier": "every table row and column", "why_tests_cant": "Tests exercise the entries only through whole checksums of a few buffers.", "anchors": ["src/common/crc32table.h", "src/tools/gen_crc32table.c"]}
{"id": "C18", "title": "Burst errors in the output are always detected", "statement": "Two equal-length buffers that differ, with all differing bits inside a window of 32 consecutive bits, never have the same CRC; hence a decompressor can never return a buffer that differs from the compressed original by such a burst when the stored CRC is that of the original.", "quantifier": "every pair of buffers of every length differing by one burst of at most 32 bits", "why_tests_cant": "The set of pairs is infinite; the guarantee is algebraic.", "anchors": ["src/common/crc32.h:crc32_be", "src/serial/842_decompress.c:sw842_decompress"]}
{"id": "C19", "title": "All template tables describe the same format", "statement": "The compressor template table, the decompressor template table, the switch of the optimised compressor and decompressor, the branch-free tables, the CUDA table, the OpenCL arithmetic formulas and the HLS length table all describe the same 26 templates, each producing exactly 8 bytes with the documented number of argument bits.", "quantifier": "every template code, every action position, every implementation", "why_tests_cant": "A wrong entry for a rare template survives tests on typical data, in particular for the implementations that are not built on the test machine.", "anchors": ["src/serial/842_compress.c:comp_ops", "src/serial/842_decompress.c:decomp_ops", "src/serial_optimized/842_compress.cpp:add_template", "src/common/opcodes.h", "src/cuda/842_decompress.cu:dec_templates", "src/ocl/decompress.cl:do_op", "src/hls/842_decomp.cpp:get_parameter_length"]}
{"id": "C20", "title": "sw842_compress picks a cheapest template", "statement": "For each 8-byte block which sw842_compress encodes with a template, no other template with any arguments that decodes to the same 8 bytes at this point of the stream takes fewer bits.", "quantifier": "every input, every block, every alternative template and argument combination", "why_tests_cant": "Requires that the match finder is complete for every history: each value inside the reference window is found.", "anchors": ["src/serial/842_compress.c:process_next", "src/serial/842_compress.c:check_template", "src/serial/842_compress.c:replace_hash", "src/serial/842_compress.c:find_index"]}
{"id": "C21", "title": "Output does not depend on uninitialised workspace", "statement": "The bytes produced by optsw842_compress (and sw842_compress) do not depend on the uninitialised contents of the malloc'ed workspace (ring buffers, scratch arrays).", "quantifier": "every input, every two initial contents of the workspace", "why_tests_cant": "Uninitialised memory is usually zero or stale-but-equal in tests; dependence shows up nondeterministically.", "anchors": ["src/serial_optimized/842_compress.cpp:optsw842_compress", "src/serial_optimized/842_compress.cpp:find_index", "src/serial/842_compress.c:sw842_compress"]}
{"id": "C22", "title": "Ring-buffer references resolve to the documented bytes", "statement": "At every output position, each index argument resolves to the unique offset that lies inside the last N bytes of completed output, is congruent to the index modulo the ring, and is rejected when that ring slot has not been written yet. This holds identically in the sw, optsw, OpenCL and CUDA decoders.", "quantifier": "every output position, every index value, each of the three ring sizes", "why_tests_cant": "The wrap-around correction is position dependent and positions are unbounded.", "anchors": ["src/serial/842_decompress.c:__do_index", "src/serial_optimized/842_decompress.cpp:do_index", "src/ocl/decompress.cl:get_index", "src/cuda/842_decompress.cu:get_index"]}
{"id": "C23", "title": "Trailing bytes are ignored", "statement": "Bytes after the end marker and the CRC never influence the result of a successful decompression: any input extending the consumed bits gives the same output.", "quantifier": "every successfully decompressed input and every extension or change of the bytes following the CRC", "why_tests_cant": "Over-reading look-ahead code may let later bytes influence the result at rare alignments.", "anchors": ["src/serial/842_decompress.c:sw842_decompress", "src/serial_optimized/842_decompress.cpp:optsw842_decompress"]}
{"id": "C24", "title": "Decompression capacity exactness", "statement": "If decompression succeeds with some capacity giving n bytes, it gives the same result for every capacity >= n and fails with -ENOSPC for every smaller capacity.", "quantifier": "every input and all capacities, both software decompressors", "why_tests_cant": "All capacities must be considered for each stream; the checks are spread over the op handlers.", "anchors": ["src/serial/842_decompress.c:sw842_decompress", "src/serial_optimized/842_decompress.cpp:optsw842_decompress"]}
{"id": "C25", "title": "Host byte order independence", "statement": "Compressed streams and decompressed data are byte-for-byte the same on little- and big-endian hosts.", "quantifier": "every input, capacity; both byte orders; sw and optsw compressors and decompressors", "why_tests_cant": "Requires running on both kinds of machine with all inputs.", "anchors": ["src/common/endianness.h", "src/serial/842_compress.c", "src/serial/842_decompress.c", "src/serial_optimized/842_compress.cpp", "src/serial_optimized/842_decompress.cpp", "src/common/crc32.h"]}
{"id": "C26", "title": "Hardware compatibility of produced streams", "statement": "If the input length is a multiple of 8, the stream produced by either compressor contains only template, repeat, zeros and end ops (no software-only short-data op); otherwise sw842_compress emits exactly one short-data op, holding the last len mod 8 bytes, directly before the end marker, and optsw842_compress refuses the input with -EINVAL.", "quantifier": "every input of every length", "why_tests_cant": "A statement about the op sequence for all inputs.", "anchors": ["src/serial/842_compress.c:sw842_compress", "src/serial_optimized/842_compress.cpp:optsw842_compress"]}
{"id": "C27", "title": "optsw842 results do not depend on buffer alignment", "statement": "For the same compressed bytes and capacity, optsw842_decompress gives the same return code and output whether or not the buffers happen to be 8-byte aligned.", "quantifier": "every compressed input, every capacity, every combination of alignments", "why_tests_cant": "The unaligned path dispatches to a different implementation; agreement must hold for every input.", "anchors": ["src/serial_optimized/842_decompress.cpp:optsw842_decompress"]}
{"id": "C28", "title": "Everything sw842_compress accepts can be decompressed", "statement": "For every input on which sw842_compress succeeds there is a capacity for which sw842_decompress succeeds on its output.", "quantifier": "every input, including inputs larger than 4 GiB", "why_tests_cant": "Needs inputs above 4 GiB.", "anchors": ["src/serial/842_compress.c:sw842_compress", "src/serial/842_decompress.c:sw842_decompress (line 405)"]}
{"id": "C29", "title": "Chunked calls equal successive single calls", "statement": "The chunked variants process chunk i exactly like a single-chunk call on in + i*istride / out + i*ostride, for all i, storing result code and length per chunk and leaving chunks with length SIZE_MAX untouched.", "quantifier": "every number of chunks, every stride, every length array", "why_tests_cant": "Offsets are kept in 32-bit variables; a deviation needs more than 4 GiB of data.", "anchors": ["src/common/trivial_chunked.h", "include/lib842/common.h"]}
{"id": "C30", "title": "Chunked calls report failures", "statement": "The return value of a chunked call is non-zero whenever some processed chunk failed with an error other than -ENOSPC (the only error the code singles out as benign), and 0 when every processed chunk succeeded.", "quantifier": "every number of chunks and every combination of per-chunk results", "why_tests_cant": "All combinations of failing chunks.", "anchors": ["src/common/trivial_chunked.h", "include/lib842/common.h"]}
{"id": "C31", "title": "Chunk isolation", "statement": "A chunked call writes only inside the output regions [i*ostride, i*ostride + olens[i]) of processed chunks; a failing or hostile chunk never changes the output bytes of another chunk when the regions are disjoint.", "quantifier": "every number of chunks, strides, capacities and chunk contents (with total size below 4 GiB)", "why_tests_cant": "All combinations of contents and capacities of neighbouring chunks.", "anchors": ["src/common/trivial_chunked.h"]}
{"id": "C32", "title": "The compression stream emits every block exactly once", "statement": "Between start and the finalize callback, for a non-cancelled operation without error, the block callback receives each of the floor(size/BLOCK_SIZE) whole blocks exactly once, and nothing else, whatever the thread schedule.", "quantifier": "every number of threads, every size, every interleaving of the worker threads, every epoch setting", "why_tests_cant": "Schedules are unbounded; races on the shared offset show up rarely.", "anchors": ["src/stream/DataCompressionStream.cpp:loop_compress_thread", "include/lib842/stream/comp.h"]}
{"id": "C33", "title": "Epoch ordering of emitted blocks", "statement": "With an offset-sync epoch of E bytes, no block at or beyond k*E is emitted before all blocks below k*E have been emitted (also in operations that are later cancelled or fail: before all emitted blocks below k*E).", "quantifier": "every number of threads, every size, every power-of-two multiple E of BLOCK_SIZE, every interleaving", "why_tests_cant": "An ordering over all schedules.", "anchors": ["src/stream/DataCompressionStream.cpp:loop_compress_thread", "src/stream/DataCompressionStream.cpp:set_offset_sync_epoch_multiple", "include/lib842/detail/barrier.h"]}
{"id": "C34", "title": "Finalize callback: exactly once, after all work", "statement": "For every start/finalize pair the finalize callback is invoked exactly once, after every block callback of the operation has returned, and its argument is false if and only if some block callback of the operation signalled an error.", "quantifier": "every number of threads, every interleaving, every sequence of operations, compression and decompression streams", "why_tests_cant": "All schedules and all sequences of operations.", "anchors": ["src/stream/DataCompressionStream.cpp", "src/stream/DataDecompressionStream.cpp"]}
{"id": "C35", "title": "Stream workers never get stuck", "statement": "No reachable state of a compression or decompression stream is a deadlock: all workers meet at each barrier the same number of times, whatever offsets they fetched and also after cancel or error; after the destructor's quit all threads terminate.", "quantifier": "every number of threads, every size and epoch, every interleaving", "why_tests_cant": "Deadlocks depend on rare schedules.", "anchors": ["src/stream/DataCompressionStream.cpp", "src/stream/DataDecompressionStream.cpp", "include/lib842/detail/barrier.h"]}
{"id": "C36", "title": "Block contents are lossless", "statement": "A block emitted by the compression stream consists of 16 chunks, each either stored raw (size CHUNK_SIZE) or compressed to at most COMPRESSIBLE_THRESHOLD bytes, and the decompression of the block restores exactly the 1 MiB of input at its offset, even when the compressor fails for some chunks.", "quantifier": "every block content, every compressor behaviour allowed by the single-call contract", "why_tests_cant": "All block contents.", "anchors": ["src/stream/DataCompressionStream.cpp:handle_block", "src/stream/DataDecompressionStream.cpp:handle_block", "include/lib842/stream/block.h"]}
{"id": "C37", "title": "The decompression stream handles every pushed block exactly once", "statement": "If the finalize callback of a non-cancelled operation reports success, every block pushed in the operation was decompressed exactly once, before the callback.", "quantifier": "every number of threads, every sequence of pushes, every interleaving", "why_tests_cant": "All schedules.", "anchors": ["src/stream/DataDecompressionStream.cpp"]}
{"id": "C38", "title": "The decompression stream reports corrupt data", "statement": "If any chunk of any pushed block cannot be decompressed, the finalize callback receives success = false.", "quantifier": "every pushed block with at least one undecodable chunk, every interleaving, release and debug builds", "why_tests_cant": "All corrupt inputs and schedules.", "anchors": ["src/stream/DataDecompressionStream.cpp:handle_block", "src/common/trivial_chunked.h"]}
{"id": "C39", "title": "End-to-end stream round trip", "statement": "Compressing a buffer with a compression stream and pushing all emitted blocks, in any order, into a decompression stream restores the first floor(size/BLOCK_SIZE)*BLOCK_SIZE bytes of the buffer.", "quantifier": "every buffer content and size, every order of blocks, every interleaving of workers", "why_tests_cant": "Combination of all contents with all schedules.", "anchors": ["src/stream/DataCompressionStream.cpp", "src/stream/DataDecompressionStream.cpp"]}
{"id": "C40", "title": "Barrier safety", "statement": "A thread leaves the g-th use of an un-interrupted barrier only after all n threads have arrived at the g-th use; generations never mix.", "quantifier": "every number of threads, every interleaving, any number of reuses", "why_tests_cant": "All schedules, unbounded reuse.", "anchors": ["include/lib842/detail/barrier.h"]}
{"id": "C41", "title": "Barrier interruption", "statement": "After interrupt(), no thread blocked or subsequently arriving at the barrier stays blocked.", "quantifier": "every number of threads, every interleaving", "why_tests_cant": "All schedules.", "anchors": ["include/lib842/detail/barrier.h"]}
{"id": "C42", "title": "Latch correctness", "statement": "wait() on a latch of count n returns only after n count_down calls, and every waiter is released once n count_down calls have happened.", "quantifier": "every n, every number of waiters, every interleaving", "why_tests_cant": "All schedules.", "anchors": ["include/lib842/detail/latch.h"]}
{"id": "C43", "title": "OpenCL decoder matches the format", "statement": "For every input word sequence, whenever the format decoder accepts a stream without short data, the OpenCL decompress_core returns 0 with the same output; when it returns 0 the output is the decoding of the op stream (its CRC is not checked).", "quantifier": "every input and capacity", "why_tests_cant": "No OpenCL device in tests; all bit strings.", "anchors": ["src/ocl/decompress.cl:decompress_core", "src/ocl/decompress.cl:do_op", "src/ocl/decompress.cl:read_bits"]}
{"id": "C44", "title": "OpenCL decoder validates the CRC", "statement": "decompress_core rejects a stream whose stored CRC differs from that of the decoded data.", "quantifier": "every stream and every CRC value", "why_tests_cant": "All wrong values.", "anchors": ["src/ocl/decompress.cl:decompress_core (lines 368-383)"]}
{"id": "C45", "title": "Maybe-compressed chunks are recovered", "statement": "Every chunk packed as documented (raw if incompressible, else marker + size + data at the end of the chunk) is restored by the MAYBE_COMPRESSED_CHUNKS kernel.", "quantifier": "every chunk content", "why_tests_cant": "The ambiguous case is a raw chunk that begins with the 16-byte marker.", "anchors": ["src/ocl/decompress.cl:decompress", "sample/compdecomp_cl.cpp", "include/lib842/common.h:LIB842_COMPRESSED_CHUNK_MARKER"]}
{"id": "C46", "title": "In-place decompression never overwrites unread input", "statement": "With INPLACE_COMPRESSED_CHUNKS the output pointer never overtakes the not-yet-buffered input, so in-place decompression gives the same result as out-of-place.", "quantifier": "every compressible chunk content", "why_tests_cant": "Depends on the distribution of compressibility inside a chunk.", "anchors": ["src/ocl/decompress.cl:read_bits", "include/lib842/cl.h"]}
{"id": "C47", "title": "CUDA decoder matches the format on valid streams", "statement": "On every stream without short data that decodes to at most a chunk, cuda842_decompress writes exactly the decoded bytes.", "quantifier": "every valid stream", "why_tests_cant": "No CUDA device in tests; all streams.", "anchors": ["src/cuda/842_decompress.cu:cuda842_decompress"]}
{"id": "C48", "title": "HLS tokenizer matches the format", "statement": "The HLS opcode tokenizer splits every input into the same op/argument sequence as the format, for every bus transfer boundary, and its shift buffer never overflows or underflows.", "quantifier": "every input stream and every alignment of ops relative to the 128-bit transfers", "why_tests_cant": "No FPGA in tests; all alignments.", "anchors": ["src/hls/842_decomp.cpp:opcode_tokenizer", "src/hls/842_decomp.cpp:get_parameter_length"]}
{"id": "C49", "title": "static_log2 computes floor(log2)", "statement": "For every argument from 1 to 2^32-1 the static_log2.h ladder yields the floor of the base-2 logarithm.", "quantifier": "every 32-bit argument", "why_tests_cant": "2^32 preprocessor evaluations.", "anchors": ["src/common/static_log2.h"]}
{"id": "C50", "title": "cl2c embeds files losslessly", "statement": "The C string literal emitted for a file denotes exactly the bytes of the file.", "quantifier": "every file content without NUL bytes", "why_tests_cant": "All file contents.", "anchors": ["src/tools/cl2c.cpp"]}
{"id": "C51", "title": "OpenCL program cache is crash safe and exact", "statement": "find returns a stored binary only if chunk size, stride, format, source hash and device list all equal the stored ones, then it returns exactly the stored binaries; a cache file cut at any point by a crash is never returned.", "quantifier": "every key, every binary set, every crash point (prefix of the file)", "why_tests_cant": "All prefixes of all files.", "anchors": ["src/ocl/cl842decompress.cpp (program_cache)"]}
{"id": "C52", "title": "cryptodev length translation is lossless", "statement": "The hardware wrapper either rejects a request with -EINVAL or passes every chunk length to the driver unchanged, with the skip marker SIZE_MAX mapped to UINT32_MAX and back, and no 64-bit value silently truncated.", "quantifier": "every chunk count, stride and length array", "why_tests_cant": "Needs values around 2^32.", "anchors": ["src/cryptodev/842_interface.c:c842_compress_chunked"]}
{"id": "C53", "title": "cryptodev context setup leaks nothing", "statement": "If setting up a hardware context fails at any step, every descriptor opened so far has been closed and every session created so far has been finished; on success exactly the needed ones are open.", "quantifier": "every combination of failing system calls", "why_tests_cant": "Fault injection at every step.", "anchors": ["src/cryptodev/842_interface.c:hw842_ctx_init"]}
{"id": "C54", "title": "cryptodev reports thread-key creation failure", "statement": "If creating the thread-specific storage key fails, the next hardware call reports an error instead of using the invalid key.", "quantifier": "every outcome of tss_create", "why_tests_cant": "Cannot force the failure in tests.", "anchors": ["src/cryptodev/842_interface.c:create_thread_ctx_key"]}
{"id": "C55", "title": "CLDeviceDecompressor arguments match their declaration", "statement": "Calling CLDeviceDecompressor::decompress as declared in the public header binds every buffer to the kernel argument of the same name.", "quantifier": "every argument tuple", "why_tests_cant": "Both swapped parameters have the same type; needs an OpenCL device.", "anchors": ["include/lib842/cl.h", "src/ocl/cl842decompress.cpp"]}
{"id": "C56", "title": "cl842_decompress handles one chunk for every length", "statement": "cl842_decompress launches exactly one chunk and reads exactly one element of its length arrays, for every input length.", "quantifier": "every input length", "why_tests_cant": "Only lengths above 99999 deviate.", "anchors": ["src/ocl/cl842decompress.cpp:cl842_decompress"]}
{"id": "C57", "title": "OpenCL decoder stays inside its buffers", "statement": "For every input, valid or corrupt, decompress_core and the decompress kernel only read the given input bytes and only access the given output bytes, and return.", "quantifier": "every input byte string, length, capacity and chunk format", "why_tests_cant": "Out-of-bounds device reads of a few bytes are silent; inputs that trigger them are rare.", "anchors": ["src/ocl/decompress.cl:decompress_core", "src/ocl/decompress.cl:decompress"]}
{"id": "C58", "title": "cryptodev alignment requirement is consistent", "statement": "The alignment test of the hardware wrapper accepts exactly the addresses that are multiples of alignmask+1, so a buffer aligned to the reported required_alignment is never refused for its alignment, even if the requirement was reported before the device could be opened.", "quantifier": "every 64-bit address, every alignment mask of low bits, every outcome of the system calls", "why_tests_cant": "All addresses, including those where the addition wraps around, and all masks a driver may report.", "anchors": ["src/cryptodev/842_interface.c:is_pointer_aligned", "src/cryptodev/842_interface.c:hw842_get_required_alignment"]}
{"id": "C59", "title": "A broken OpenCL program cache is not fatal", "statement": "The program cache is an optimisation only: whatever the cache file contains, and whether or not it can be read or written, building the decompressor succeeds whenever the kernel can be built from its source.", "quantifier": "every content of the cache file, every key, every set of binaries, every outcome of file and build operations", "why_tests_cant": "All contents of a file in a world-writable directory.", "anchors": ["src/ocl/cl842decompress.cpp (program_cache)", "src/ocl/cl842decompress.cpp:buildProgram"]}
{"id": "C60", "title": "cl2c reports failure", "statement": "If cl2c exits with success, the output file declares a string with exactly the contents of the input file; in particular a missing input file or an output file that cannot be created is reported.", "quantifier": "every argument list, every input file, present or missing, every outcome of opening the files", "why_tests_cant": "All contents and all failures; a build with a silently empty kernel fails only on a device.", "anchors": ["src/tools/cl2c.cpp"]}
{"id": "C61", "title": "The sample program restores every file", "statement": "Run on any readable file, the compdecomp sample (driver plus OpenMP core over the serial or optimised implementation) ends with success: the decompressed data equals the padded file, and the reported compressed length is the sum of the chunk sizes, an incompressible chunk counting 64 KiB.", "quantifier": "every file content and length, every processing order of the batches, every address of the buffers, every content of uninitialised arrays, both byte orders", "why_tests_cant": "Incompressible chunks mixed with compressible ones at any place, all lengths around chunk and batch borders, and all OpenMP schedules cannot be enumerated.", "anchors": ["sample/compdecomp.c", "sample/compdecomp_driver.c", "src/common/trivial_chunked.h"]}
{"id": "C63", "title": "The branch-free configuration is not observable", "statement": "Compiled with BRANCH_FREE=1, optsw842_compress and optsw842_decompress give the same results as in the default configuration: the same return code and *olen, and on success the same output bytes; so streams of either configuration can be read by the other.", "quantifier": "every input, every output buffer and capacity, every alignment, both byte orders, every content of uninitialised memory, every meaning of 64-bit shifts by 64", "why_tests_cant": "The variants use different tables and formulas for 26 templates; equality on all streams, valid or not, and independence of what the processor does for oversized shifts cannot be tested on one machine.", "anchors": ["src/serial_optimized/842_compress.cpp", "src/serial_optimized/842_decompress.cpp", "src/common/opcodes.h"]}
{"id": "C64", "title": "optsw842 uses the references its dictionary holds", "statement": "For each 8-byte group that optsw842_compress encodes with a template, no other template that decodes to the same 8 bytes and refers only to values in reach is shorter; a value is in reach if it occurs in the reference window and no later value of its size has the same hash. Hence, if no two values of the input collide, the output is exactly as long as that of sw842_compress; it is never shorter.", "quantifier": "every input, every group, every alternative template and argument combination, every content of uninitialised memory, both byte orders", "why_tests_cant": "Requires completeness of the match finder for every history of hash table updates; a compressor that loses references still round-trips, so tests of the results stay green.", "anchors": ["src/serial_optimized/842_compress.cpp:update_hashtables", "src/serial_optimized/842_compress.cpp:process_next", "src/serial_optimized/842_compress.cpp:find_index", "src/serial_optimized/842_compress.cpp:get_template"]}
{"id": "C65", "title": "The streams have no data races", "statement": "In every execution of a compression or decompression stream whose user keeps the contract (operations do not overlap, no call after the destructor begins), no two threads access the same non-atomic member at the same time with one of them writing, even though the parameters of an operation (_ptr, _size, the block callback, the epoch) are written by start and read by the workers without the mutex. (False for _quit, which the workers test at the head of their loop without the mutex while the destructor sets it; true for every other member.)", "quantifier": "every number of threads, every interleaving, every sequence of operations, cancellations and errors", "why_tests_cant": "Depends on the interleaving; a race sanitiser sees only the schedules that happen to run.", "anchors": ["src/stream/DataCompressionStream.cpp:loop_compress_thread", "src/stream/DataDecompressionStream.cpp:loop_decompress_thread", "include/lib842/stream/comp.h"]}
{"id": "C66", "title": "What 842 cannot compress", "statement": "Whatever the compressor, a stream that the format decodes to x has at least 16 bits for every 2-byte word that did not occur among the 2048 bytes before its 8-byte group (in a group that is not zero) and 5 bits for every group with such a word, plus the 37 bits of the trailer. Hence data all of whose words are new, of which there are inputs of every length, takes exactly 8*ceil((69*groups+37)/64) bytes with sw842_compress and optsw842_compress: the bound users size buffers with (C06, C12) is attained, and a smaller output buffer gives -ENOSPC.", "quantifier": "every input, every stream the format decodes to it, both compressors, every output buffer size, every content of uninitialised memory", "why_tests_cant": "A lower bound over all streams and all compressors cannot be tested; that the worst case is attained for every length is a statement about infinitely many inputs.", "anchors": ["src/serial/842_compress.c:sw842_compress", "src/serial_optimized/842_compress.cpp:optsw842_compress", "src/common/842.h"]}
{"id": "C67", "title": "The OpenCL sample restores every file and reports its compressed size", "statement": "Run on any nonempty file, the OpenCL sample compresses each 64 KiB chunk on the host, launches the kernel and finds the decompressed data equal to the file, in each of the three chunk formats, with or without the shuffle map, whatever the schedule of the OpenMP loop and of the work items; the reported size is the sum of the sizes of the compressed chunks. (False: the sum is computed in an int, so it is wrong from 2^31 bytes on; with MAYBE_COMPRESSED_CHUNKS an incompressible chunk that begins with the marker is not restored; in place see C46. True otherwise.)", "quantifier": "every file, every chunk format, every schedule of loop iterations and work items, every content of uninitialised memory, every address of the buffers", "why_tests_cant": "Needs all schedules, inputs of gigabytes for the accumulator, and chunks of specific contents for the marker.", "anchors": ["sample/compdecomp_cl.cpp:compress_benchmark_core", "sample/compdecomp_driver.c:compdecomp", "src/ocl/cl842decompress.cpp:CLHostDecompressor::decompress", "src/ocl/decompress.cl:decompress"]}
{"id": "C68", "title": "The streams sample restores every file, in every interleaving, and always ends", "statement": "Run on any nonempty file with any number of threads, compdecomp_streams (main thread, compression stream, decompression stream, callbacks and latches together) ends in every interleaving: no deadlock, no endless execution; when the benchmark function returns, all threads of both streams have ended, the decompressed data is the input, the reported size is the sum of the compressed sizes, and the function returns true exactly if the input consists of whole 1 MiB blocks (which the driver ensures by padding). The accesses to the variables shared with the callbacks do not race. (False for the last sentence: line 170 writes comp_error without the mutex after the stream has been started, while a callback may be reading it. False for an empty file: the program fails. True otherwise.)", "quantifier": "every file, every number of threads, every interleaving of the main thread and the threads of both streams, with spurious wakeups, every content of uninitialised memory", "why_tests_cant": "Interleavings cannot be enumerated by tests; deadlocks and races show up in few schedules only.", "anchors": ["sample/compdecomp_streams.cpp:compress_benchmark_core", "sample/compdecomp_driver.c:compdecomp", "src/stream/DataCompressionStream.cpp", "src/stream/DataDecompressionStream.cpp"]}
{"id": "C69", "title": "Cancelling, errors and destruction stop a stream promptly", "statement": "After finalize(true) has been called on a compression stream, or its destructor has begun, each of its N threads hands over at most one more block of the operation (at most N in all); after the callback has been given an error block, at most N-1 more. After finalize(true), the start of the destructor, or a refused push_block on a decompression stream, no thread begins to decompress another block of the operation.", "quantifier": "every interleaving of any number of threads with any sequence of calls of the user, any input size, any epoch setting, failures of any blocks, spurious wakeups", "why_tests_cant": "How much work is done after a cancel depends on the schedule; tests see few schedules and can only show that some run stops soon.", "anchors": ["src/stream/DataCompressionStream.cpp:finalize", "src/stream/DataCompressionStream.cpp:loop_compress_thread", "src/stream/DataDecompressionStream.cpp:finalize", "src/stream/DataDecompressionStream.cpp:push_block", "src/stream/DataDecompressionStream.cpp:loop_decompress_thread"]}
{"id": "C70", "title": "sw842_compress gives the shortest stream the format allows", "statement": "For data of a multiple of 8 bytes no stream of the hardware format that decodes to it is shorter (in multiples of 8 bytes) than the output of sw842_compress.", "quantifier": "every input, every competing stream of the format", "why_tests_cant": "The number of streams that decode to a given input is unbounded; a test can only compare with the output of another compressor.", "anchors": ["src/serial/842_compress.c:sw842_compress", "src/serial/842_compress.c:check_index", "src/serial/842_compress.c:add_repeat_template", "src/serial/842_compress.c:process_next"]}
{"id": "C71", "title": "sw842_compress manages its memory correctly", "statement": "Whatever the input and the room in the output, sw842_compress uses no block after it was freed, frees none twice, returns with exactly the blocks allocated that were allocated before (also on errors), needs a number of blocks bounded independently of the input length, and reports a lack of memory as an error.", "quantifier": "every input, output buffer, previous contents of the heap and amount of memory", "why_tests_cant": "Which dictionary entries are freed and when depends on the equalities among up to 512 previous values at different positions; sanitizers only see the inputs run, and failure of malloc is not exercised at all.", "anchors": ["src/serial/842_compress.c:replace_hash", "src/serial/842_compress.c:destroy_hashtable", "src/serial/842_compress.c:update_hashtables", "src/serial/842_compress.c:sw842_compress"]}
{"id": "C72", "title": "Decompression cannot expand beyond 4096/11", "statement": "n input bytes never decode to more than 4096 n / 11 bytes, with any of the decoders; the exact bound (11 d + 21416 <= 4096 n for d > 0 bytes of data) is reached for streams of unbounded size; hence a buffer of 4096 n / 11 bytes lets the decompressors accept every stream of the format.", "quantifier": "every input (valid or not), buffer and decoder", "why_tests_cant": "The bound is about all streams of all lengths; a fuzzer finds large expansions but cannot show that there are no larger ones.", "anchors": ["src/serial/842_decompress.c:sw842_decompress", "src/serial/842_decompress.c:do_op", "src/serial_optimized/842_decompress.cpp:optsw842_decompress", "src/ocl/decompress.cl:decompress_core"]}
{"id": "C73", "title": "Error codes of the decompressors can be trusted", "statement": "An error other than -ENOSPC from a decompressor means that the input is no stream of the format, so that no larger buffer helps; -ENOSPC means that the buffer is smaller than what inputs of this size can need; no other codes than -EINVAL, -EOVERFLOW (serial only) and -ENOSPC occur. A caller that doubles its buffer on -ENOSPC stops below twice the bound with the final answer. sw842_decompress and optsw842_decompress report -ENOSPC exactly if the input comes, after valid ops that fit, to an op (serial: the first action of an op) for which there is no room, or (serial) decodes to more than UINT_MAX bytes: never for the beginning of a stream whose data fits, and if for a buffer then also for every smaller one. The OpenCL decoder reports -ENOSPC exactly if the input begins with valid ops for more data than there is room for.", "quantifier": "every input (valid or not), buffer, first buffer size", "why_tests_cant": "That malformed inputs of every kind are not answered with -ENOSPC for a sufficient buffer, and valid ones never with another code, is a statement about all inputs; tests see a few malformed ones.", "anchors": ["src/serial/842_decompress.c:sw842_decompress", "src/serial/842_decompress.c:do_op", "src/serial_optimized/842_decompress.cpp:optsw842_decompress", "src/ocl/decompress.cl:decompress_core"]}
{"id": "C74", "title": "Undefining ENABLE_ERROR_HANDLING is harmless for good calls", "statement": "Without ENABLE_ERROR_HANDLING (which the comment in 842-internal.h recommends for controlled environments), optsw842_decompress does exactly the same as with it whenever the latter succeeds; in particular it restores whatever the compressors produce. On other calls it still ends, and returns no other code than -EINVAL.", "quantifier": "every input, buffer, alignment, byte order, with and without CRC", "why_tests_cant": "The configuration is not built by default, and its equivalence on all valid streams is a statement about all of them; on invalid ones a test cannot tell undefined behaviour from luck.", "anchors": ["src/serial_optimized/842-internal.h:ENABLE_ERROR_HANDLING", "src/serial_optimized/842_decompress.cpp:optsw842_decompress", "src/serial_optimized/842_decompress.cpp:read_word", "src/serial_optimized/842_decompress.cpp:do_index"]}
{"id": "C75", "title": "Round trip with DISABLE_CRC", "statement": "With DISABLE_CRC, whatever optsw842_compress produces is restored by optsw842_decompress of the same configuration, and the decoder accepts exactly the op sequences with an end marker.", "quantifier": "every input, buffers, alignments, byte orders, contents of uninitialised memory", "why_tests_cant": "The configuration is not built by default; exact acceptance and the round trip range over all inputs.", "anchors": ["src/serial_optimized/842_compress.cpp:optsw842_compress", "src/serial_optimized/842_decompress.cpp:optsw842_decompress", "src/serial/842_decompress.c:sw842_decompress"]}
{"id": "C76", "title": "The NUMA samples check the whole file", "statement": "compdecomp_pgasus and compdecomp_pgasus_omp compress and decompress every chunk of the given file (padded with zeros) exactly once, end with exit status 0 if and only if the decompressed data is the file, and stay inside their buffers.", "quantifier": "every file, number of CPUs, number of nodes and threads per node, order of the threads, contents of uninitialised memory", "why_tests_cant": "A test runs on one machine; the division of chunks among nodes and threads, its rounding and the 32-bit file length matter on other machines and with files of several GiB.", "anchors": ["sample/compdecomp_pgasus.cpp:main", "sample/compdecomp_pgasus.cpp:getPaddedInputBufferLength", "sample/compdecomp_pgasus.cpp:next_pow2", "sample/compdecomp_pgasus_omp.cpp:main"]}
{"id": "C77", "title": "The CUDA sample tells whether the codec works", "statement": "sample/compdecomp.cu compresses every chunk of the given file (padded with zeros) on the host, restores all of them on the device, reports success if and only if the result is the file, tells so by its exit status, and stays inside its buffers.", "quantifier": "every file, compressor, order of the threads of a launch and of the iterations of the OpenMP loop, with and without unified memory", "why_tests_cant": "No CUDA device in tests; files of more than 16 GiB and all interleavings are out of reach.", "anchors": ["sample/compdecomp.cu:main", "sample/compdecomp.cu:nextMultipleOfChunkSize", "src/cuda/842_decompress.cu:cuda842_decompress"]}
{"id": "C78", "title": "Threads are spread evenly among the NUMA nodes", "statement": "spread_threads_among_numa_nodes binds each of the given threads to the CPUs of one NUMA node, and the numbers of threads of any two nodes with CPUs differ by at most one.", "quantifier": "every number of threads, every set of nodes, CPUs, numbers of CPUs and permissions", "why_tests_cant": "A test sees one machine, usually with one node; memory-only nodes and gaps in the numbers of CPUs are rare.", "anchors": ["src/stream/numa_spread.cpp:spread_threads_among_numa_nodes", "src/stream/numa_spread.cpp:get_numa_cpusets", "src/stream/numa_spread.h:spread_threads_among_numa_nodes"]}
{"id": "C79", "title": "cryptodev threads are isolated from each other", "statement": "Any number of threads may use the hardware functions at the same time: each uses only its own descriptor and session, none is used after it was closed or closed twice, a thread that ends leaves nothing open, and get_hw842_implementation may be called by any of them.", "quantifier": "every number of threads, every interleaving of their system calls, every failure of a system call", "why_tests_cant": "Needs the hardware and failures injected into system calls; interleavings of threads are not under the control of a test.", "anchors": ["src/cryptodev/842_interface.c:get_thread_cryptodev_ctx", "src/cryptodev/842_interface.c:destroy_thread_ctx", "src/cryptodev/842_interface.c:c842_ctx_init", "src/cryptodev/842_interface.c:get_hw842_implementation"]}
{"id": "C80", "title": "OpenCL: a corrupt chunk does not affect the others", "statement": "CLHostDecompressor::decompress treats each chunk as if it were alone: whatever the other chunks hold, a valid chunk is restored at its place and gets return value 0 and its length; a corrupt one gets an error code and length 0; nothing outside the slots is written. The arrays of chunk sizes serve only for error checking and may be left out.", "quantifier": "every number of chunks, all contents (also corrupt) of every chunk, all chunk sizes, every shuffle map, every order of the work items", "why_tests_cant": "Corrupt chunks next to valid ones and orders of work items cannot be enumerated; what happens depends on the scheduling of the device.", "anchors": ["src/ocl/cl842decompress.cpp:CLHostDecompressor::decompress", "src/ocl/cl842decompress.cpp:CLDeviceDecompressor::decompress", "src/ocl/decompress.cl:decompress", "include/lib842/cl.h:CLDeviceDecompressor"]}
{"id": "C81", "title": "OpenCL: any available device is found", "statement": "The constructor of CLHostDecompressor finds devices whenever an OpenCL device is available ('using any available OpenCL-capable devices'): the available devices of one platform, GPUs before CPUs; it throws CL_DEVICE_NOT_FOUND only if there is none, and its queue is created for an available device.", "quantifier": "all lists of platforms and devices, all answers and failures of the queries", "why_tests_cant": "The set of platforms and devices of a machine is fixed; failing queries do not occur on demand.", "anchors": ["src/ocl/cl842decompress.cpp:CLHostDecompressor::findDevices", "src/ocl/cl842decompress.cpp:CLHostDecompressor::CLHostDecompressor", "include/lib842/cl.h:CLHostDecompressor"]}
{"id": "C82", "title": "OpenCL: work items that run at the same time do not interfere", "statement": "The work items of one launch of the OpenCL kernel may run truly concurrently, interleaved access by access to the output buffer: no two of them ever access the same bytes at the same time with one access a store, none accesses memory out of bounds, all of them end, and every chunk has the result it would have if decompressed alone.", "quantifier": "every number of chunks, all contents (also corrupt) of every chunk, all chunk sizes, every shuffle map, every interleaving of the individual reads and stores of all work items", "why_tests_cant": "The interleaving is chosen by the device; a test sees one of exponentially many, and a race need not be visible in the result.", "anchors": ["src/ocl/decompress.cl:decompress", "src/ocl/decompress.cl:decompress_core", "src/ocl/cl842decompress.cpp:CLDeviceDecompressor::decompress"]}
{"id": "C83", "title": "CUDA: threads that run at the same time do not interfere", "statement": "The threads of one launch of the CUDA kernel may run truly concurrently, interleaved access by access to the output buffer: no two of them ever access the same bytes at the same time with one access a store, none accesses memory out of bounds, all of them end, and every chunk is restored as if it were decompressed alone.", "quantifier": "every number of threads, all contents of every chunk, every interleaving of the individual reads and stores of all threads", "why_tests_cant": "The interleaving is chosen by the device; a test sees one of exponentially many, and a race need not be visible in the result.", "anchors": ["src/cuda/842_decompress.cu:cuda842_decompress", "src/cuda/842_decompress.cu:get_index", "src/cuda/842_decompress.cu:read_bits"]}
{"id": "C84", "title": "Sample program: single chunks and condensed output", "statement": "The compile-time variants of the benchmark in sample/compdecomp.c (CHUNKS_PER_BATCH 1, CONDENSE, or both) restore the input like the default one: the benchmark returns true, the decompressed data is the input, the reported length is the sum of the compressed sizes, and no access is out of bounds.", "quantifier": "every input of whole 64 KiB chunks (compressible or not), every compressor/decompressor pair that meets the contract, every order of the iterations of the three parallel loops, all contents of uninitialised memory", "why_tests_cant": "The variants are disabled by default and are never built; whether a read past the condensed buffer is noticed depends on the heap, and a test covers a few inputs and schedules.", "anchors": ["sample/compdecomp.c:compress_benchmark_core", "src/common/trivial_chunked.h:LIB842_DEFINE_TRIVIAL_CHUNKED_COMPRESS"]}
{"id": "C85", "title": "Two wrong bits in the output are always detected", "statement": "If what the ops of a stream decode to differs from the original data in exactly two bits, the stored CRC does not match: crc32_be differs for every two buffers of equal length below 512 MiB that differ in exactly two bits, wherever these are; in general it differs unless the distance of the bits is a multiple of 2^32-1. The decompressors therefore never return such data for a stream with the CRC of the original.", "quantifier": "all buffers, all pairs of bit positions, all streams, both decompressors, both byte orders", "why_tests_cant": "The number of buffers and pairs of positions is unbounded; the claim rests on the polynomial being primitive (period 2^32-1).", "anchors": ["src/common/crc32.h:crc32_be", "src/serial/842_decompress.c:sw842_decompress", "src/serial_optimized/842_decompress.cpp:optsw842_decompress"]}
{"id": "C86", "title": "One wrong bit in a compressed stream is noticed", "statement": "If one bit of a stream that a compressor produced is wrong, the decompressors report an error or return the original data.", "quantifier": "all inputs of the compressors, all positions of the wrong bit", "why_tests_cant": "The effect of a wrong bit depends on the data, all later references and the CRC; a test tries a few streams and positions.", "anchors": ["src/serial/842_decompress.c:sw842_decompress", "src/serial_optimized/842_decompress.cpp:optsw842_decompress", "src/common/crc32.h:crc32_be"]}
{"id": "C87", "title": "The serial compressor needs a bounded amount of memory, and exactly as much as its dictionaries hold", "statement": "Whatever the length of the input, sw842_compress never holds more than 2049 blocks of memory at a time, and not more than 1 + 14 for every 8 bytes. For every input the number it needs is exactly the largest number of pieces and of different values among them that the three dictionaries hold at any time, plus one: with that much memory it works, with one block less it dereferences a null pointer. 2049 is reached by inputs of 2048 bytes.", "quantifier": "all inputs, output buffers, heaps and limits of the heap; both byte orders", "why_tests_cant": "The peak depends on the contents of the last 2 KiB at every insertion, and on allocations and deallocations that interleave; no finite set of inputs bounds it.", "anchors": ["src/serial/842_compress.c:replace_hash", "src/serial/842_compress.c:update_hashtables", "src/serial/842_compress.c:sw842_compress"]}
{"id": "C88", "title": "The library works without LIB842_CUDA_STRICT", "statement": "If the definitions of LIB842_CUDA_STRICT are removed, which the sources provide for with #ifdef, optsw842_compress still produces valid streams that all decompressors restore, and the CUDA kernel restores what the compressor produces.", "quantifier": "all chunks, buffers, alignments and previous contents of the memory; both byte orders", "why_tests_cant": "The tests only build the default configuration, and whether a chunk is restored depends on all references the compressor picks.", "anchors": ["src/cuda/842-internal.h", "src/cuda/842_decompress.cu:cuda842_decompress", "src/serial_optimized/842_compress.cpp:optsw842_compress", "src/serial_optimized/842-internal.h", "include/lib842/cuda.h"]}
{"id": "C89", "title": "The OpenCL kernel can be built with its other switches", "statement": "The switches of decompress.cl change what their comments say and nothing else: without USE_LOOKAHEAD_BUFFER (which \"isn't needed\" unless the kernel works in place) the kernel gives the same results, without ENABLE_ERROR_HANDLING it gives the same results on valid streams and sufficient buffers, and with DISABLE_CRC it decodes the same streams.", "quantifier": "all inputs, offsets, lengths, buffers and previous contents; both byte orders; all configurations that compile", "why_tests_cant": "The tests only build the default configuration; what happens depends on every stream and on where the output is relative to the unread part of the input.", "anchors": ["src/ocl/decompress.cl:decompress_core", "src/ocl/decompress.cl:read_bits", "src/ocl/decompress.cl:get_index", "src/ocl/decompress.cl:do_op"]}
{"id": "C90", "title": "How much optsw842 can lose against sw842", "statement": "If both compressors succeed on the same data, the output of optsw842_compress is less than 69/13 (about 5.3) times as long as that of sw842_compress, and no smaller factor would do. If every other group of 8 bytes is zero, optsw842_compress finds no reference at all, whatever the other groups repeat.", "quantifier": "all inputs for the bound; all repetition counts for the worst case; all contents of the other groups; all contents of uninitialised memory; both byte orders", "why_tests_cant": "The bound needs every input and every state of the hash tables; that the worst case goes on for ever needs an invariant of the tables over unboundedly many groups.", "anchors": ["src/serial_optimized/842_compress.cpp:update_hashtables", "src/serial_optimized/842_compress.cpp:process_next", "src/serial_optimized/842_compress.cpp:find_index", "src/serial/842_compress.c:process_next"]}
{"id": "C91", "title": "The OpenMP loops of the benchmark are free of races, and the interleaving does not matter", "statement": "The loops marked `#pragma omp parallel for` in sample/compdecomp.c are free of data races, whatever the interleaving of the iterations and in whatever order a library call uses its part of the output as scratch space; all executions can be completed, and all of them end with the contents that the iterations executed one after the other produce. If iterations fail, exactly one error message is written, for the error of one of them, and the benchmark fails; if it returns true the decompressed data is the input. This holds with batches of 16 chunks, with CHUNKS_PER_BATCH 1, and for the CONDENSE loop if all chunks were compressed.", "quantifier": "all interleavings of any number of iterations; all contents and lengths of the input; all contents of uninitialised arrays; any implementation for the number of messages; any implementation that returns, within its part of the buffers, for the absence of races; the library's compressors for the benchmark as a whole", "why_tests_cant": "A data race or a lost update of omp_success shows only in particular interleavings, of which there are exponentially many, and a test runs a few of them that the scheduler picks.", "anchors": ["sample/compdecomp.c:compress_benchmark_core", "include/lib842/sw.h:get_sw842_implementation", "src/common/trivial_chunked.h"]}
{"id": "C92", "title": "Streams written only in part never yield wrong data", "statement": "If only the first k bytes of a compressed stream are there, followed by nothing, by zero bytes or by 0xff bytes (a file that was being written when the machine stopped, erased flash memory), the decompressors return the original data or report an error; they never return other data, and nothing is accessed out of bounds. sw842_decompress accepts a truncated stream if and only if it still contains the CRC, and otherwise reports -EOVERFLOW and no other error (buffer large enough for the data); optsw842_decompress rejects the output of the compressors as soon as a single byte is missing, with -EINVAL and no other error (buffer large enough for the data).", "quantifier": "all streams of the format, all cut positions, all numbers of bytes behind the cut; all inputs of the compressors for the safety of the serial decompressor", "why_tests_cant": "Where the cut meets an op, the bytes behind it complete it to another op; whether this can be an end marker, with a CRC that happens to fit, depends on every stream and every position. The OpenCL decoder does not even check the CRC.", "anchors": ["src/serial/842_decompress.c:sw842_decompress", "src/serial_optimized/842_decompress.cpp:optsw842_decompress", "src/ocl/decompress.cl:decompress_core"]}
{"id": "C93", "title": "Buffers allocated as recommended have the alignment that is required", "statement": "A program that allocates its buffers with preferred_alignment, as the samples and the compression stream do, never hands a pointer to an implementation that lacks its required_alignment, whatever the implementation does with such pointers.", "quantifier": "all implementations, all addresses aligned_alloc may return, all data, all orders of the loops; all states of the hardware driver", "why_tests_cant": "A test sees the addresses one allocator happens to return, which are usually aligned to more than was asked for; AIX and the accelerator are not available on test machines.", "anchors": ["src/aix/aix.c:get_aix842_implementation", "src/cryptodev/842_interface.c:get_hw842_implementation", "src/stream/DataCompressionStream.cpp:handle_block", "sample/compdecomp.c:compress_benchmark_core"]}
{"id": "C94", "title": "Damage in a stream does not affect the data in front of it", "statement": "If only the first k bytes of a stream are intact and the rest is changed, truncated or longer, a decompressor that returns, with whatever result, has put the data of all ops within those k bytes at the start of the output buffer: at least the first 8 * floor(8k / 69) bytes of the data for sw842_decompress, 8 * floor(64 * floor(k / 8) / 69) for optsw842_decompress (aligned buffers), the OpenCL decoder and a thread of the CUDA decoder.", "quantifier": "all data, all streams, all k, all bytes in place of the damaged ones, both byte orders", "why_tests_cant": "What stands in place of the damaged part is arbitrary: later ops refer back to the output, and a decoder that wrote through such a reference, or stepped back on an error, would spoil what it had decoded already. Tests look at the output of successful calls only.", "anchors": ["src/serial/842_decompress.c:sw842_decompress", "src/serial_optimized/842_decompress.cpp:optsw842_decompress", "src/ocl/decompress.cl:decompress_core", "src/cuda/842_decompress.cu:cuda842_decompress"]}
{"id": "C95", "title": "The rest of the output buffer is left alone", "statement": "After a successful call the bytes of the output buffer behind the reported length are what they were before the call. True for both decompressors and for optsw842_compress with aligned buffers; sw842_compress (and optsw842_compress with unaligned buffers, which calls it) may clear up to three bytes behind the stream, and never changes more.", "quantifier": "all inputs, all prior contents and sizes of the output buffer, all addresses, both byte orders", "why_tests_cant": "Tests compare the bytes up to the reported length. Whether a store reaches beyond the end depends on the bit position at which the checksum falls, so on the whole input.", "anchors": ["src/serial/842_compress.c:add_bits", "src/serial/842_decompress.c:sw842_decompress", "src/serial_optimized/842_compress.cpp:optsw842_compress", "src/serial_optimized/842_decompress.cpp:optsw842_decompress"]}
{"id": "C96", "title": "SW842_STRICT separates the hardware streams", "statement": "With SW842_STRICT set, sw842_compress refuses with -EINVAL exactly the inputs for which it would otherwise produce a stream the hardware format has no reading of; what it accepts it compresses to the same stream as usual, which all three decoders (serial, optimised, OpenCL) restore. Without SW842_STRICT, the streams for lengths that are not a multiple of 8 are refused by optsw842_decompress with aligned buffers.", "quantifier": "all inputs, buffers, addresses, byte orders", "why_tests_cant": "The constant is 0 in the repository, so no test runs the strict configuration; that no data at all corresponds to a stream is a statement about all data.", "anchors": ["src/serial/842_compress.c:SW842_STRICT", "src/serial/842_compress.c:sw842_compress"]}
{"id": "C97", "title": "An answer is final unless it says that the input is too short", "statement": "The answer of sw842_decompress for an input (return code, length, contents of the buffer, or undefined behaviour) is the answer for every continuation of the input if and only if it is not -EOVERFLOW. So input that arrives in pieces can be tried after each piece; the first other answer is that for the whole input, and no input is answered with -EOVERFLOW whatever follows. For optsw842_decompress success and -ENOSPC are final, while -EINVAL is not, because it is also the answer for an input that is too short.", "quantifier": "all inputs, continuations, buffers, addresses, byte orders", "why_tests_cant": "It compares the answers for an input and for all of its continuations.", "anchors": ["src/serial/842_decompress.c:sw842_decompress", "src/serial/842_decompress.c:next_bits", "src/serial_optimized/842_decompress.cpp:optsw842_decompress"]}
{"id": "C98", "title": "The OpenCL kernel is compiled for the parameters of the decompressor", "statement": "Read as compiler options, the text built by CLDeviceDecompressor::buildProgram defines the chunk size, the chunk stride, the error codes and the marker with exactly the values the host uses, and the switch for the input format, for all sizes and formats and whatever locale the program has set; the options are equal exactly if the sizes and formats in the key of the program cache are.", "quantifier": "all chunk sizes and strides of size_t, all formats, all locales (separator and grouping)", "why_tests_cant": "Tests use a few sizes and the locale of the test machine; a number with a separator is wrong only in other locales.", "anchors": ["src/ocl/cl842decompress.cpp:CLDeviceDecompressor::buildProgram"]}
{"id": "C99", "title": "A latch may be destroyed as soon as wait has returned", "statement": "With every access to the latch (lock, decrement, notify, unlock, evaluation of the predicate, going to sleep) as a step of its own: when wait has returned in a thread, each of the n calls of count_down has made its last access, so a latch that is a local variable may be destroyed although the counting threads have not been joined; the calls never come to a halt before all have returned; and taking critical sections as single steps (C42) hides nothing.", "quantifier": "all numbers of counting and waiting threads, all interleavings of single accesses, all spurious wakeups", "why_tests_cant": "A use after destruction needs the scheduler to stop the counting thread between two particular instructions.", "anchors": ["include/lib842/detail/latch.h:count_down", "include/lib842/detail/latch.h:wait", "sample/compdecomp_streams.cpp:compress_and_decompress"]}
{"id": "C100", "title": "Old contents of the output buffer have no influence", "statement": "How a decompressor call ends (return code, reported length, undefined behaviour) and which bytes it stores depend only on the input and the size of the output buffer, not on what was in the buffer, even for damaged or malicious input: no old data (of another user, say) is ever copied or interpreted, and everything behind the stored bytes is left alone. True for sw842_decompress, optsw842_decompress and the OpenCL decoder with separate buffers (which reads more than it needs); the CUDA decoder, which does not check references, copies old memory contents into its output.", "quantifier": "all inputs, all sizes and all contents of the output buffer, all alignments, both byte orders", "why_tests_cant": "It compares runs over all pairs of buffer contents for all inputs, including those that end in an error half way through an op.", "anchors": ["src/serial/842_decompress.c:__do_index", "src/serial_optimized/842_decompress.cpp:do_index", "src/ocl/decompress.cl:do_op", "src/cuda/842_decompress.cu:get_index"]}
{"id": "C101", "title": "The barrier, one memory access at a time", "statement": "With every lock, counter update, generation update, notification and unlock of arrive_and_wait and interrupt a step of its own, in any interleaving and any number of rounds: unless interrupted, a thread returns from its r-th call only after every thread has entered r times; threads make only a bounded number of steps (at most (2N+5)(N+M) for N users and M interrupters) unless new calls begin or wakeups are spurious, and when no step is left every call has returned, except those of threads asleep because the barrier is not interrupted and some thread has not arrived; taking each critical section as one step loses nothing.", "quantifier": "all numbers of threads and interrupters, all interleavings, all numbers of rounds, with and without spurious wakeups", "why_tests_cant": "Tests run a few schedules; a lost wakeup or a deadlock hides in the schedules that the machine does not happen to produce.", "anchors": ["include/lib842/detail/barrier.h:arrive_and_wait", "include/lib842/detail/barrier.h:interrupt"]}
{"id": "C102", "title": "Compressing more data extends the output", "statement": "What the compressors write for the beginning of the data does not depend on what follows: the output for p followed by x begins with the output for p but for its last 14 bytes (22 if p is not a whole number of 8-byte groups), and 14 is the least such number. A prefix never needs a larger output buffer than the whole: if the whole fits, the prefix does too. The last sentence is false for sw842_compress and prefixes that end inside a group (7 bytes need 16, 8 bytes need 8), where up to 8 bytes more are needed.", "quantifier": "all prefixes and continuations, all buffers, both byte orders, all alignments (optsw842: aligned in both calls or in none)", "why_tests_cant": "It compares outputs for all pairs of inputs with a common prefix; the dictionaries carry state through the whole input.", "anchors": ["src/serial/842_compress.c:sw842_compress", "src/serial/842_compress.c:process_next", "src/serial_optimized/842_compress.cpp:optsw842_compress"]}
{"id": "C103", "title": "Critical sections of the compression stream may be interrupted", "statement": "If every access of the compression stream to one of its members is a step of its own (mutex with an owner, unlocked accesses of other threads in between, the calls of the user split likewise), the user still sees only traces that atomic critical sections allow: every block exactly once, epochs in order, one finalize callback after all block callbacks. When start writes _size without the mutex no thread is about to access it. No deadlock; between calls only finitely many steps; every call returns; a called finalize leads to the finalize callback and a called destructor to the end of all threads.", "quantifier": "all numbers of threads, all epoch settings, all sequences of calls within the contract, all interleavings of single accesses, spurious wakeups anywhere", "why_tests_cant": "The interleavings of single accesses are unbounded in number and are not under the control of a test.", "anchors": ["src/stream/DataCompressionStream.cpp:loop_compress_thread", "src/stream/DataCompressionStream.cpp:start", "src/stream/DataCompressionStream.cpp:finalize", "src/stream/DataCompressionStream.cpp:~DataCompressionStream"]}
{"id": "C104", "title": "Critical sections of the decompression stream may be interrupted", "statement": "If every access of the decompression stream to one of its members is a step of its own (mutex with an owner, unlocked accesses of other threads in between, the calls of the user split likewise), the user still sees only traces that atomic critical sections allow: every pushed block is decompressed exactly once, a block is refused only after an error, one finalize callback after all decompressions. The callback that is called is the one given to the last finalize, called once and never empty. Blocks are written to the buffer of the last start, front and pop are called only on a queue that is not empty, the assertion of push_block holds, and when start writes _ptr without the mutex no thread is about to read it. No deadlock, also no block waiting for a sleeping thread; between calls only finitely many steps; every call returns; a called finalize leads to the finalize callback and a called destructor to the end of all threads.", "quantifier": "all numbers of threads, all sequences of calls within the contract, all interleavings of single accesses, any choice of the thread woken by notify_one, spurious wakeups anywhere", "why_tests_cant": "The interleavings of single accesses are unbounded in number and are not under the control of a test.", "anchors": ["src/stream/DataDecompressionStream.cpp:loop_decompress_thread", "src/stream/DataDecompressionStream.cpp:start", "src/stream/DataDecompressionStream.cpp:push_block", "src/stream/DataDecompressionStream.cpp:finalize", "src/stream/DataDecompressionStream.cpp:~DataDecompressionStream"]}
{"id": "C105", "title": "A decoder needs the last 2 KiB of its output, and no more", "statement": "What an op appends to the output, and whether it is accepted, depends only on the last 2048 bytes of complete 8-byte groups of the output and on the length modulo 2048; 2048 is the least such number. So decoding can be resumed in the middle of a stream: if the beginning of a stream is replaced by anything that decodes to the same last 2 KiB (and a length that is the same modulo 2048), sw842_decompress, optsw842_decompress and the OpenCL decoder restore the same bytes from the rest. An accepted index never makes the decoder read further back.", "quantifier": "all streams, all places to cut them, all replacements of the beginning", "why_tests_cant": "A reference that reaches too far back needs a particular position and index; histories are unbounded in number and length.", "anchors": ["src/serial/842_decompress.c:__do_index", "src/serial_optimized/842_decompress.cpp:do_index", "src/ocl/decompress.cl:get_index", "src/common/842.h"]}
{"id": "C106", "title": "Random damage is missed exactly once in 2^32 cases", "statement": "The checksum of the format is perfectly balanced: of all data of n >= 4 bytes exactly one in 2^32 has a given checksum, and any four consecutive bytes can be chosen in exactly one way to get it. So, however data are written as streams with the same stored checksum, sw842_decompress and optsw842_decompress accept exactly one in 2^32 of all data of n bytes.", "quantifier": "all lengths n, all stored checksums, all ways to write the data as ops, both byte orders, all alignments", "why_tests_cant": "The number of data that are accepted can be counted by running the decompressor only for tiny lengths; already 8 bytes have 2^64 values.", "anchors": ["src/common/crc32.h:crc32_be", "src/serial/842_decompress.c:sw842_decompress", "src/serial_optimized/842_decompress.cpp:optsw842_decompress"]}
{"id": "C107", "title": "optsw842_compress manages its memory correctly", "statement": "With aligned buffers optsw842_compress needs exactly two free blocks of memory, whatever the input: with two it returns what it returns with unlimited memory, uses and frees no block wrongly, and leaves exactly the blocks allocated that were allocated before, also if the output buffer is too small and the exception is caught; with misaligned buffers the same holds with 2049 blocks. With less memory a null pointer is used instead of reporting -ENOMEM.", "quantifier": "all non-empty inputs, all output buffers, all alignments, both byte orders, all contents of uninitialised memory, all heaps", "why_tests_cant": "A leak or double free on one path shows only if a test takes that path under a memory checker; the amount of memory needed is a maximum over all inputs.", "anchors": ["src/serial_optimized/842_compress.cpp:optsw842_compress", "src/serial_optimized/bitstream.cpp:stream_open", "src/serial_optimized/bitstream.cpp:stream_close"]}
{"id": "C108", "title": "Fixed-width arithmetic never wraps", "statement": "The lengths, bit positions, counters, masks and back-reference offsets that sw842_compress, sw842_decompress, optsw842_compress, optsw842_decompress, the OpenCL kernel and a thread of the CUDA kernel compute in uint8_t, uint16_t, uint32_t, int, uint64_t and size_t never leave the range of these types in a way that changes anything: on every input, valid or damaged, the calls return the same values, write the same bytes and go out of bounds in the same cases as if they computed with unbounded integers.", "quantifier": "all inputs and all output buffers of fewer than 2^63 bytes (every object of C), both byte orders, all addresses, all contents of uninitialised memory, all 64-bit lengths passed to the OpenCL kernel", "why_tests_cant": "Wrap-around shows only for lengths and positions near the limits of a type, with buffers of gigabytes, or for a particular combination of bit position and field width.", "anchors": ["src/serial/842_compress.c:add_bits", "src/serial/842_compress.c:sw842_compress", "src/serial/842_decompress.c:__do_index", "src/serial/842_decompress.c:next_bits", "src/serial/842_decompress.c:sw842_decompress", "src/serial_optimized/842_compress.cpp:optsw842_compress", "src/serial_optimized/bitstream.cpp:stream_write_bits", "src/serial_optimized/842_decompress.cpp:do_index", "src/serial_optimized/842_decompress.cpp:read_bits", "src/ocl/decompress.cl:read_bits", "src/ocl/decompress.cl:get_index", "src/ocl/decompress.cl:do_op", "src/ocl/decompress.cl:decompress_core", "src/cuda/842_decompress.cu:read_bits", "src/cuda/842_decompress.cu:get_index", "src/cuda/842_decompress.cu:cuda842_decompress"]}
{"id": "C109", "title": "Critical sections of a stream and of its barrier may be interrupted", "statement": "If every access of a stream to one of its members, and every access of its barrier to one of the barrier's members, is a step of its own (two mutexes with an owner; the destructor calls interrupt while it holds the mutex of the stream), the guarantees of both streams still hold: every block exactly once, epochs in order, one finalize callback after all blocks, the right callback; no deadlock between the two mutexes; between calls only finitely many steps; every call returns; a called finalize leads to the finalize callback, and a called destructor to the end of all threads, also of those that sleep in the barrier or are about to. A thread that owns the mutex of the barrier never owns that of the stream.", "quantifier": "all numbers of threads, all epoch settings, all sequences of calls within the contract, all interleavings of single accesses, spurious wakeups anywhere", "why_tests_cant": "A deadlock between two mutexes, or a wakeup lost between the test of a predicate and the sleep, needs one of unboundedly many interleavings that a test does not control.", "anchors": ["include/lib842/detail/barrier.h:arrive_and_wait", "include/lib842/detail/barrier.h:interrupt", "src/stream/DataCompressionStream.cpp:loop_compress_thread", "src/stream/DataCompressionStream.cpp:~DataCompressionStream", "src/stream/DataDecompressionStream.cpp:loop_decompress_thread", "src/stream/DataDecompressionStream.cpp:~DataDecompressionStream"]}
{"id": "C110", "title": "The consumer of the HLS tokens recovers every operation", "statement": "The program around opcode_tokenizer (main in 842_decomp.cpp) reads tokens until the last flag, takes op code and parameters out of each with the tables of the tokenizer, and shifts the parameters to the right. For a stream of the hardware format it retrieves, for each operation in order, its op code and exactly its argument bits as a number, then the end marker with parameter 0, consumes all tokens and never waits for one that does not come. Two streams for which it retrieves the same have the same operations. For other input it retrieves the complete operations in front, and then the end marker.", "quantifier": "all sequences of 128-bit transfers, well formed or not", "why_tests_cant": "The repository has one transfer as a test; shift amounts depend on every op code and on where an operation lies in the 128-bit words.", "anchors": ["src/hls/842_decomp.cpp:main", "src/hls/842_decomp.cpp:opcode_tokenizer", "src/hls/842_decomp.cpp:get_parameter_length"]}
{"id": "C111", "title": "NUMA sample programs: any interleaving of the worker threads", "statement": "In compdecomp_pgasus and compdecomp_pgasus_omp the worker threads of all nodes run at the same time: they draw their numbers from an atomic counter in any order, store sizes, and call the library, which may write anything to its output while it runs. If the threads of a node together take no more chunks than the node has (as on nodes with equal numbers of CPUs): no thread does anything undefined, no two threads access the same element of the arrays of sizes or the same output byte, each thread that has not ended can go on, a phase takes at most 3c+2 steps per thread for c chunks per thread, every execution can be completed, and each completed one has the outcome of the program whose threads run one after the other: exit status 0 and the file (continued with zeros) for nodes with equal numbers of CPUs. Exit status 0 always means that the data is right, whatever the library does. If the library fails for every chunk, at least one message is printed; in the runs above none is.", "quantifier": "all non-empty files of less than 2 GiB, all numbers of nodes and threads for which the chunks suffice, all addresses and initial sizes, all interleavings, all intermediate contents of the output", "why_tests_cant": "The order in which threads draw their numbers and the overlap of their calls are up to the scheduler of a NUMA machine; a test sees one of them.", "anchors": ["sample/compdecomp_pgasus.cpp:main", "sample/compdecomp_pgasus_omp.cpp:main"]}
{"id": "C112", "title": "Concurrent calls of cl842_decompress, with failures of the OpenCL runtime", "statement": "Any number of threads may call cl842_decompress at the same time; they share one decompressor, a local static variable. Whatever the interleaving, and whichever calls of the OpenCL runtime fail: a call that returns a value has the return value, *olen and output buffer of a call on its own; a call ends with -ENOMEM (or with an exception from the program cache) if and only if a runtime call of its own has failed, and has then changed output buffer and *olen not at all or to what it would have returned; results do not change after the call has ended; the decompressor is constructed by one call at a time, successfully at most once, and a later call tries again after a failure; there is no deadlock and no endless loop (at most 13 steps per call); if every call is defined on its own, nothing undefined happens; an empty input always ends with an error.", "quantifier": "all inputs and output buffers of any number of calls, all interleavings with each other and with the device, all failures, all old contents of device memory", "why_tests_cant": "The order in which threads initialise the static variable, create buffers and have their kernels run is up to the scheduler and the driver; failures of the runtime cannot be provoked by a test.", "anchors": ["src/ocl/cl842decompress.cpp:cl842_decompress", "src/ocl/cl842decompress.cpp:CLHostDecompressor::decompress", "src/ocl/cl842decompress.cpp:CLDeviceDecompressor::decompress"]}
{"id": "C113", "title": "Chunked round trip through the tables of functions", "statement": "A user who takes struct lib842_implementation from get_sw842_implementation, get_optsw842_implementation or get_aix842_implementation may compress several chunks with compress_chunked of one table and give lengths and output, as they are, to decompress_chunked of another: if all chunks were compressed successfully, all chunks are restored, with return value 0 for each. This holds for all four combinations of the software implementations, on hosts of the same or different byte order, and for AIX provided that the two functions of the operating system restore single chunks. The chunked functions of each table do what its single-chunk functions do, although each source file defines the compressor with the macro for the decompressor and vice versa.", "quantifier": "all numbers of chunks, strides, inputs (whole 8-byte blocks, below 4 GiB per chunk), addresses, byte orders, old contents of buffers and length arrays; all functions of the operating system that restore single chunks", "why_tests_cant": "Strides, lengths, addresses and combinations of implementations are unbounded; AIX and hosts of the other byte order are not available to the tests.", "anchors": ["src/serial/842_compress.c:get_sw842_implementation", "src/serial_optimized/842_compress.cpp:get_optsw842_implementation", "src/aix/aix.c:get_aix842_implementation", "src/common/trivial_chunked.h:LIB842_DEFINE_TRIVIAL_CHUNKED_COMPRESS", "include/lib842/common.h:lib842_implementation"]}
{"id": "C114", "title": "Data can be exchanged between hardware and software", "statement": "Chunks that hw842_compress_chunked reports as compressed can be restored by hw842_decompress_chunked and by the decompressor in software, and chunks compressed by the software can be restored by hw842_decompress_chunked: lengths and output of one call are given to the other as they are. The same holds for the calls for a single chunk, hw842_compress and hw842_decompress. If one of the calls for several chunks returns an error, the lengths of the caller are untouched.", "quantifier": "all numbers of chunks, strides, lengths, data, results of the system calls, previous states of the context of the thread; all drivers whose device follows the format (reports success only for streams of the hardware format, restores such streams)", "why_tests_cant": "The device is not available to the tests in most environments, and what matters is that the library passes strides, lengths and return values of every chunk correctly to any device that follows the format.", "anchors": ["src/cryptodev/842_interface.c:hw842_compress_chunked", "src/cryptodev/842_interface.c:hw842_decompress_chunked", "src/cryptodev/842_interface.c:hw842_compress", "src/cryptodev/842_interface.c:hw842_decompress", "src/cryptodev/842_interface.c:c842_compress_chunked", "src/serial/842_decompress.c:sw842_decompress"]}
{"id": "C115", "title": "The switches of the optimised codec can be combined", "statement": "BRANCH_FREE, ENABLE_ERROR_HANDLING and DISABLE_CRC may be chosen independently: in each of the eight builds the compressor produces the same stream for the same choice of the CRC, data compressed by one build are restored by every build with the same choice of the CRC, a branch-free decompressor returns what the other one with the same two other switches returns, and switching off the error handling or the CRC does not change the result of a decompression that succeeds with them.", "quantifier": "all inputs, output buffers, alignments, byte orders, uninitialised memory, all eight combinations of the switches on either side, all meanings of a shift by 64 that give a value (0 for 0 << 64)", "why_tests_cant": "The tests are built with one combination only, and an invalid op or a reference that only one of the builds checks is not among the test data.", "anchors": ["src/serial_optimized/842_decompress.cpp:optsw842_decompress", "src/serial_optimized/842_decompress.cpp:do_op", "src/serial_optimized/842_decompress.cpp:get_index", "src/serial_optimized/842_compress.cpp:optsw842_compress", "src/serial_optimized/842-internal.h:ENABLE_ERROR_HANDLING"]}
{"id": "C116", "title": "The trace of the spreading of threads is only output", "statement": "With LIB842_STREAM_INDEPTH_TRACE, spread_threads_among_numa_nodes binds the threads as without it; the list of CPUs it writes for a thread, read as a list of numbers and ranges, has exactly the CPUs the thread is to be bound to, different sets have different texts, and no shorter list of ranges has the same CPUs.", "quantifier": "every set of CPUs, number of threads, set of nodes, CPUs, numbers of CPUs and permissions, first and later calls", "why_tests_cant": "The switch is off in all builds of the project, the output depends on the machine, and a node of memory only is rare.", "anchors": ["src/stream/numa_spread.cpp:cpu_set_to_string", "src/stream/numa_spread.cpp:get_numa_cpusets", "src/stream/numa_spread.cpp:spread_threads_among_numa_nodes", "include/lib842/stream/common.h:LIB842_STREAM_INDEPTH_TRACE"]}
{"id": "C117", "title": "The recursion of the serial codec is at most four calls deep", "statement": "add_bits with __split_add_bits, and next_bits with __split_next_bits, call themselves again for fields that do not fit the remaining buffer. Whatever the field, the data, the position and the size of the buffer, no more than four calls of the function are on top of each other, so the stack needed does not depend on the input; four do occur.", "quantifier": "all field widths (also invalid ones), all data, all buffers and buffer sizes, all positions with a bit offset below 8 (which the functions preserve), both byte orders", "why_tests_cant": "The depth depends on the last bytes of the buffer and on the bit offset; no test measures it, and tests cannot show that no input needs more.", "anchors": ["src/serial/842_compress.c:add_bits", "src/serial/842_compress.c:__split_add_bits", "src/serial/842_decompress.c:next_bits", "src/serial/842_decompress.c:__split_next_bits"]}
{"id": "C118", "title": "The work of a decompressor is bounded by the room for the output", "statement": "A call of sw842_decompress with room for n bytes ends after at most n + 1 iterations of its main loop, and its result (code, length and contents of the buffer) is determined by the first 2 n + 5 bytes of the input, however long the input is and whatever it contains; optsw842_decompress (aligned buffers) and decompress_core of the OpenCL kernel (input not in the output buffer) end after at most n / 8 + 1 iterations. The result of optsw842_decompress (aligned buffers) is determined by the first 69 floor(n / 8) + 37 bits of the input, rounded up to words of 64 bits. The answer of decompress_core (and the data if it succeeds) is determined by the first 69 (floor(n / 8) + 1) bits, rounded in the same way. So a caller who limits the output limits the time, too. None of the bounds can be improved.", "quantifier": "all inputs (also invalid ones) of any length, all output buffers, both byte orders, all addresses", "why_tests_cant": "A stream that keeps the decompressor busy without producing output would have to be found among all inputs; tests only see streams made by a compressor.", "anchors": ["src/serial/842_decompress.c:sw842_decompress", "src/serial_optimized/842_decompress.cpp:optsw842_decompress", "src/ocl/decompress.cl:decompress_core"]}
{"id": "C119", "title": "Runs of equal groups are compressed as far as the format allows", "statement": "For every group of 8 bytes and every k, both compressors turn k + 1 copies of the group into a stream of exactly 8 ceil((c + 11 ceil(k / 64) + 37) / 64) bytes, with c = 5 for a zero group and 69 otherwise, or report -ENOSPC if the buffer is smaller than that. If the group is not zero, no stream of whole words is shorter; on zeros the largest expansion rate any stream can have (C72) is reached for arbitrarily long data.", "quantifier": "all groups, all lengths of the run, all buffers, both byte orders, all addresses, all contents of the uninitialised workspace", "why_tests_cant": "The repeat counter has its limit at 64 repetitions; runs of every length, of every group, are more than can be tried.", "anchors": ["src/serial/842_compress.c:sw842_compress", "src/serial_optimized/842_compress.cpp:optsw842_compress", "src/common/842.h:REPEAT_BITS"]}
{"id": "C120", "title": "The compressed size is a function of the data that can be computed without compressing", "statement": "For every input, sw842_compress reports exactly the size that follows from the data alone: 11 bits for up to 64 repetitions of a group, 5 bits for a zero group, 13 bits for a group whose 8 bytes are in the ring buffer, otherwise 5 bits plus, for each half, 9 bits if it is in the ring buffer and else 8 or 16 bits for each of its two words; 8 bits and the bytes themselves for the rest of the data, 37 bits for end and checksum, rounded up to words. It fails with -ENOSPC exactly if this does not fit. The size depends only on which bytes are equal: replacing the byte values one to one (0 stays 0) never changes it.", "quantifier": "all inputs of any length, all buffers, both byte orders, all addresses, all contents of the uninitialised workspace", "why_tests_cant": "A missed match in one of the three hash tables costs a few bits on particular data and leaves every round trip intact.", "anchors": ["src/serial/842_compress.c:process_next", "src/serial/842_compress.c:check_template", "src/serial/842_compress.c:find_index", "src/serial/842_compress.c:sw842_compress"]}
{"id": "C121", "title": "Compressing in pieces never gains and costs less than 2 KiB for each cut", "statement": "If data is cut at multiples of 8 bytes and every piece is compressed with sw842_compress on its own, the streams together are at least as long as the stream for all the data, and at most 1824 bytes longer for every cut, however long the pieces are (1800 bytes are possible). Cutting anywhere else can make the streams shorter than the stream for the whole.", "quantifier": "all data, all numbers and lengths of pieces, each call with its own buffer, byte order, address and uninitialised workspace", "why_tests_cant": "A bound on the loss over all data, and the absence of data for which chunking is better, are not visible from any number of sample files.", "anchors": ["src/serial/842_compress.c:sw842_compress", "src/serial/842_compress.c:process_next", "src/serial/842_compress.c:update_hashtables", "sample/compdecomp.c:compress_benchmark_core"]}
