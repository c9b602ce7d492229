# lib842: formal model and proofs (Lean 4)

This file is written before the proofs and kept current.  `properties.jsonl`
lists the properties (C01 ...), `MANIFEST.json` maps them to theorems.

## 1. Approach

* **Spec** (`Verif/Spec.lean`).  A small, declarative description of the 842
  format, transcribed from the prose in `src/common/842.h` and not from the
  code: ops, their bit encodings, what each op appends to the output, and
  `Decodes input data` ("input starts with a well-formed op sequence that
  expands to `data`, an end marker and the CRC of `data`").  The CRC is specified
  bit-serially (`Spec.crc`).  No loop, buffer or table of the code is used.
* **Models** (`Verif/Model/*.lean`).  One Lean definition per C/C++ function, with
  file/line citations, same control flow, machine words as `BitVec`, byte
  buffers as `List (BitVec 8)` of exactly the size the caller provided.  Every memory
  access is bounds checked and an out-of-bounds access, an undefined shift etc.
  is a separate outcome `ub`; every loop has explicit fuel and running out of
  fuel is a separate outcome `timeout`; error returns are outcome `err`.
  "Memory safe" = outcome is never `ub`; "terminates" = outcome is never `timeout`.
  The host byte order is a parameter.
* **Proofs** (`Verif/Proofs/*.lean`) refine the models to the spec: bit
  writers/readers are related to bit lists, the compressors' dictionaries are related
  to ring-buffer references by loop invariants, the decoders are shown sound
  and complete for `Decodes`.
* **Property theorems** (`Verif/Props/*.lean`), one file per group, statements only
  in terms of the entry-point models and the spec; each with a non-vacuity
  example next to it.
* **Concurrent parts** are transition systems over all interleavings; properties
  are inductive invariants over all reachable states, for any number of threads.

## 2. Plan per property

| id | what is modelled / how proved |
|----|-------------------------------|
| C01-C03 | `sw842_compress`, `sw842_decompress`, `optsw842_*` in full; compress output satisfies `Decodes`, decompress complete for `Decodes` |
| C04 | outcome `ub` unreachable in both compressor models |
| C05 | false: repeat after a short-data op with fewer than 8 output bytes reads before the buffer; witness + partial theorem (safe for all streams where that does not happen) |
| C06 | outcome `ub` unreachable in the optsw decompressor model |
| C07, C10-C12 | writer invariants: output = fixed bit string padded to 64 bits; success iff it fits |
| C08 | entry points return `*olen`; false for `optsw842_compress` with length not multiple of 8; witness + partial |
| C09 | outcome `timeout` unreachable with fuel bound |
| C13-C15, C23, C24 | soundness and completeness of the decoders w.r.t. `Decodes` |
| C16-C18 | linear algebra of the CRC step over GF(2) on `BitVec 32` |
| C19 | all tables transcribed; finite comparison by kernel evaluation |
| C20 | completeness invariant of the dictionaries |
| C21 | model takes the uninitialised arrays as parameter; result independent |
| C22 | arithmetic of `__do_index` vs declarative ring reference |
| C25 | models parametrised by byte order; results equal |
| C26-C28 | from the op sequence of C01; C27, C28 false: witnesses + partials |
| C29-C31 | trivial_chunked macro over an arbitrary single-chunk function |
| C32-C35, C37, C40-C42 | transition systems for streams, barrier, latch; invariants |
| C36, C38, C39 | `handle_block` of both streams, `Block`; C38 false (NDEBUG): witness + partial |
| C43-C46 | OpenCL kernel model; C44, C45, C46 false: witnesses + partials |
| C47 | CUDA kernel model |
| C48 | HLS tokenizer model |
| C49 | preprocessor ladder; false below 4: witness + partial |
| C50 | cl2c escaping vs C string-literal semantics |
| C51 | program cache (de)serialisation |
| C52-C54 | cryptodev wrapper; C54 false: witness + partial |
| C55, C56 | argument binding / chunk count; false: witness + partial |
| C57 | OpenCL kernel memory accesses; false: witnesses + partial |
| C58 | alignment test and reported alignment of the cryptodev wrapper |
| C59 | program cache never makes a build fail; false: witnesses + partial |
| C60 | cl2c exit status; false: witnesses + partial |
| C61 | OpenMP sample program on top of C01/C02/C29; false for an empty file: witness + partial |
| C63 | simulation between the two configurations, op by op; false by the C++ standard: witnesses + partial |
| C64 | invariant: every hash points to the last value with it; false after zero groups: witness + partial |
| C65 | accesses to members at every place of the stream models; from the invariants of C32-C42; false for `_quit`: witness + partial |
| C66 | every op that yields a new word carries it literally; induction over the ops; the counting sequence attains the bound |
| C67 | compression loop and launch of the OpenCL sample on top of C12/C26/C43-C46/C56/C66; false: witnesses + partials |
| C68 | one transition system for main thread, both streams and callbacks; invariant over all executions on top of C33-C39, lexicographic termination; race: witness |
| C69 | counting invariant: blocks handed over since the stop plus threads holding one are at most N; queue empty after a stop |
| C70 | amortised cost per group bounds every op sequence from below and is attained; difference to the loop of the compressor computed exactly; false for short runs of zeros: witness + partial |
| C71 | model with explicit heap simulates the one without; invariant: the tables in memory represent the abstract ones and the allocated blocks are those reachable from them plus the ones of others; false without enough memory: witness + partial |
| C72 | per-op bound by induction over the op sequence; family of streams that reach it |
| C73 | bound on the space used per op and the codes reported, for each building block of the decoders; then C13, C14, C72 |
| C74 | simulation, block by block: a computation of the default configuration that notes no error is repeated by the other one; progress measure for termination |
| C75 | the decoder loop of the default configuration (C09, C13) without the last step; the compressor up to the flush |
| C76 | invariant on the memory of a node: the chunks in a set D are compressed (restored); loop, thread and schedule as folds over D; the numbers of chunks per node and per thread by arithmetic |
| C77 | invariant: the slots of the compressed chunks hold streams for them; launches by C47; unified version by induction on the launches |
| C78 | the CPU sets as a map over a filtered range; the loop over the threads by induction; counting residues |
| C79 | trees of system calls; a weakest-precondition predicate over what a thread holds, proved for each function; soundness for all interleavings by an invariant |
| C80 | induction over the order of the work items: the slots of the items that have run hold their results, the others what was there before; the per-item result from C43/C57 |
| C81 | induction over the platforms and their devices |
| C82 | the kernel as a program of single reads and stores; refinement to the sequential kernel; invariant over the interleaved steps: each work item, on its own slot, still does what it does alone; over-reads are shown not to matter |
| C83 | as C82, with the CUDA kernel; two threads with the same program race for its first store |
| C84 | as C61, for single chunks; condensation loop by disjoint slices; undefined iterations make a loop undefined in every order |
| C85 | linearity of the CRC; minimal period of shifting zeros by modular powers, checked for the prime factors of 2^32-1 |
| C86 | witnesses; C15, C18 and C85 for the rest |
| C87 | the heap model with two limits: runs agree until the smaller one is exceeded; sizes of the tables from the slots they hold |
| C88 | refinement of the changed main loop and kernel; a separate specification of the format with direct indices; witnesses |
| C89 | simulation of the kernel without look-ahead buffer by the one with it, iteration by iteration; progress measure for the kernel without error handling; witnesses |
| C90 | both loops in lockstep (13 ≤ template bits ≤ 69); invariants: all entries point to groups of one parity |
| C91 | iterations as programs of single stores and library calls; invariant over the interleaved steps: the regions are disjoint, and each iteration still does on its region what it does alone; the flag and the messages by a second invariant |
| C92 | ops are prefix-free; the end marker and the code of the repeat op contain a bit other than the filling, so they begin in the part that is left; hence the ops are those of the stream |
| C93 | relational: two implementations that agree on aligned pointers give the same runs; an implementation that is undefined on others as witness |
| C94 | run of the intact ops (as for the round trip), then an invariant of every function of the decoders: output already produced stays as it is, on success and on error; an op has at most 69 bits and stands for at least 8 bytes |
| C95 | invariants of all functions, also when they fail: behind the position of the output nothing has changed (for add_bits: at most three zeros) |
| C96 | from C26, C13 and the fact that a hardware stream denotes a multiple of 8 bytes; the decoders by C01, C03, C43, C14 |
| C97 | simulation between the run on an input and that on its continuation; -EOVERFLOW only within 68 bits of the end, and no op begins with five ones |
| C98 | a reader of option texts as the specification; digits round trip by induction; the text is a rendering of a list of definitions |
| C99 | invariant: owner of the mutex ↔ program counters, counter = calls not yet past the decrement; a sleeping thread has a call still to come; forward simulation to the coarse latch |
| C100 | two runs in lockstep: states equal but for the bytes not yet written; references lie below the output position rounded down, the surplus 16 bits of the OpenCL decoder are shifted out |
| C101 | simulation relation between the fine and the coarse barrier (each critical section commits at its notification or at the evaluation of the predicate), then C40/C41; weight of the program counters for termination |
| C102 | the pure reference compressors split at a position; the choice of an op reads only the groups up to the current one; a pending repeat count is written sooner or later |
| C103 | simulation relation between the fine and the coarse stream (each critical section commits at one of its accesses; what it has changed before and what it will change after is recorded per place), then C32-C35; lexicographic weight (steps of the call, coarse termination, weight of the places) |
| C104 | simulation relation between the fine and the coarse stream as for C103 (the wakeups of the destructor before its commit are spurious wakeups of the coarse stream), then C34, C35, C37; an invariant for the callback and one for the pointer; the same lexicographic weight |
| C105 | a reference lies in the last ringSize bytes of the complete groups, so it can be shifted along with the history; induction over arguments and ops; C13, C14, C43 for the decoders |
| C106 | filling four bytes is an injection of 32-bit values by C18, hence a bijection; data with a checksum correspond to data with four bytes less; C15 for the decompressors |
| C107 | the two blocks are the newest ones, so both exits free them in reverse order; C04 excludes the undefined outcomes of the body, C71 for the fallback |
| C108 | a simulation between the computation with words and the one with natural numbers, with the invariant pos + ilen = length and out + olen = length < 2^63 |
| C109 | refinement: bring the barrier's critical section to its end (FBar.abs); stuttering steps decrease FBar.weight |
| C110 | the tokens of C48 are the pieces of the bit stream; one token at a time: take, shift, read back |
| C111 | invariants on threads (numbers, ranges) and memory (finished, busy, untouched chunks), the same for both phases (structure Phase); a rank that every step but stores in calls decreases |
| C112 | invariant: the buffers of all calls are distinct, their contents follow from where the call is and whether its kernel has run; an event belongs to one call; the queue has the kernels of the waiting calls |
| C113 | the chunked function is the single-chunk function in succession (C29), chunks do not disturb each other (C31), each chunk is restored (C01-C03) |
| C114 | the request says what the caller said (C52), so the contract of the device applies chunk by chunk; the software produces and accepts the format (C01, C02, C113) |
| C115 | the simulations of C63 and C74 composed: a branch-free decompression that notes no error is repeated without the checks, field by field; the compressor of C75 for any configuration of the templates; witnesses for the invalid ops |
| C116 | the loops of cpu_set_to_string write a list of ranges with gaps between them (induction); reading splits at commas and minus signs; each last CPU of a range is the last of an item in any other list; induction over the threads |
| C117 | a call of k bits at offset b is followed by calls with b + k at most 40, 24, 16 (case distinction); the offset after a successful call is below 8 |
| C118 | every op produces at least one byte (8 in the optimised and in the OpenCL decoder) and has at most 16 bits per byte; the end of the input is not reported while 16 bits per byte of room and 37 for the end are left; streams of one-byte ops; for the input of the optimised decoder a simulation between the run on the whole input and the run on its first words (`OSim`: the next k bits are all that is looked at), streams of literal words |
| C119 | the reference op list of each compressor on a constant list; the first op cannot refer to anything, so it has 69 bits; lower bound by C70 |
| C120 | the dictionaries find a part iff it is in the ring buffer; the first template of the order of trial whose indices are available, by cases on the seven parts; sum over the groups as for C70 |
| C121 | more history never makes a group longer nor more than 56 bits shorter, and after 256 groups it does not matter; the run of groups across the cut is counted exactly |

## 3. Trusted base

Lean 4.33 kernel; axioms used: `propext`, `Classical.choice`, `Quot.sound` only
(checked with `#print axioms`, see section 5).  No `sorry`, no own axioms, no
`native_decide`, no `bv_decide`.  The correspondence between the C/C++ text and the
model definitions is by inspection (each definition cites its lines).

## 4. What is modelled and what is not

Modelled (model file: source lines are cited at every definition)

| model | source |
|-------|--------|
| `Model/SwComp`, `SwDecomp`, `Templates` | `src/serial/842_compress.c`, `842_decompress.c`; hash tables of uthash are an abstract map from value to slot |
| `Model/SwHeap` | `src/serial/842_compress.c` again, with `malloc`/`free` of `p`, `struct hlist_node*` and `struct node*_el` (lines 143-216, 541, 683-687); the macros of uthash/utlist act on lists as documented, allocations inside uthash are left out |
| `Model/OptHeap` | `src/serial_optimized/842_compress.cpp` 569-682 again, with `malloc`/`free` of `p` and of the stream (`bitstream.cpp` 94-110) |
| `Model/WordDecomp`, `Model/WordComp`, `Model/WordOptComp` | `842_decompress` and `842_compress` of `src/serial` and `src/serial_optimized` and `bitstream.cpp` again, with the integer types of the code |
| `Model/WordOcl`, `Model/WordCuda` | `src/ocl/decompress.cl` and `src/cuda/842_decompress.cu` again, with the integer types of the kernels |
| `Model/SwStrict` | `src/serial/842_compress.c` 88-101, 566-573 with `SW842_STRICT` set to 1 |
| `Model/OptComp`, `OptDecomp`, `BitWindow` | `src/serial_optimized/842_compress.cpp`, `842_decompress.cpp`, `bitstream.cpp` (default configuration: `ENABLE_ERROR_HANDLING`, no `BRANCH_FREE`) |
| `Model/BranchFree` | the parts of these files that differ with `BRANCH_FREE` 1; the result of shifting by 64 is a parameter |
| `Model/BranchFreeCfg` | the same with any choice of `ENABLE_ERROR_HANDLING` and `DISABLE_CRC` |
| `Model/Config` | the same files without `ENABLE_ERROR_HANDLING` and with `DISABLE_CRC` (both as parameters) |
| `Model/Align` | `required_alignment`, `preferred_alignment` in `src/serial/842_compress.c`, `src/serial_optimized/842_compress.cpp`, `src/aix/aix.c`, `src/cryptodev/842_interface.c` |
| `Model/Impl` | `struct lib842_implementation`, the tables of `src/serial`, `src/serial_optimized` and `src/aix/aix.c`, and the functions of `aix.c`, with arbitrary functions of the operating system |
| `Model/Call` | the public entry points including the alignment fallback of `optsw842_*` |
| `Model/Crc`, `CrcTable`, `GenCrc` | `src/common/crc32.h`, `crc32table.h`, `src/tools/gen_crc32table.c` |
| `Model/Log2` | `src/common/static_log2.h` |
| `Model/Basic` | `src/common/endianness.h`, `memaccess.h`, `src/serial/kerneldeps.h` |
| `Model/Chunked` | `src/common/trivial_chunked.h` |
| `Model/Sync` | `include/lib842/detail/{barrier,latch}.h` |
| `Model/LatchFine` | `include/lib842/detail/latch.h`, every access a step |
| `Model/BarrierFine` | `include/lib842/detail/barrier.h`, every access a step |
| `Model/CompFine` | `src/stream/DataCompressionStream.cpp`, every access to a member a step |
| `Model/DecompFine` | `src/stream/DataDecompressionStream.cpp`, every access to a member a step |
| `Model/CompFull`, `Model/DecompFull` | both streams again, every access to a member of the stream or of its barrier a step |
| `Model/CompStream`, `DecompStream`, `StreamBlock` | `src/stream/Data{C,Dec}ompressionStream.cpp`, `include/lib842/stream/*.h` |
| `Model/StreamRaces` | which members these files access where, with or without the mutex |
| `Model/Ocl`, `OclKernel` | `src/ocl/cl842decompress.cpp`, `decompress.cl` |
| `Model/OclConfig` | `src/ocl/decompress.cl` with the conditional parts of `USE_LOOKAHEAD_BUFFER`, `ENABLE_ERROR_HANDLING`, `DISABLE_CRC` |
| `Model/ClCache`, `Cl2c` | program cache of `cl842decompress.cpp`, `src/tools/cl2c.cpp` |
| `Model/ClOptions` | the options in `buildProgram`, `src/ocl/cl842decompress.cpp` 199-217, with the locale of the stream |
| `Model/Cuda` | `src/cuda/842_decompress.cu` |
| `Model/NonStrict` | the parts of `src/cuda/842_decompress.cu`, `842-internal.h` and `src/serial_optimized/842_compress.cpp` that differ without `LIB842_CUDA_STRICT` |
| `Model/Hls` | `src/hls/842_decomp.cpp` (synthesised function) |
| `Model/HlsDriver` | `main` in `src/hls/842_decomp.cpp` (without the text it prints) |
| `Model/Cryptodev` | `src/cryptodev/842_interface.c` |
| `Model/CryptodevThreads` | the same for several threads, and `get_hw842_implementation`; `call_once` is one step |
| `Model/HwCalls` | the four functions `hw842_*` of the same file, with their system calls and an arbitrary driver |
| `Model/Sample` | `sample/compdecomp.c` (without `CONDENSE`), `compdecomp_driver.c` (contents of the file instead of stdio, no timing) |
| `Model/Condense` | `sample/compdecomp.c` with `CHUNKS_PER_BATCH` 1 and with `CONDENSE` |
| `Model/OmpInterleave` | the loops of `sample/compdecomp.c` under `#pragma omp parallel for` as interleaved steps of all iterations; a library call may store anything into its part of the output while it runs; reads of shared arrays that nobody writes are one step |
| `Model/Pgasus` | `sample/compdecomp_pgasus.cpp`, `sample/compdecomp_pgasus_omp.cpp` (PGASUS by its documented behaviour; no timing; workspaces always large enough) |
| `Model/PgInterleave` | the worker threads of both programs as interleaved steps; a library call may store anything into its part of the output while it runs; what nobody writes in a phase is read in one step |
| `Model/CudaSample` | `sample/compdecomp.cu` without `USE_STREAMS` (CUDA functions succeed; no timing) |
| `Model/NumaSpread` | `src/stream/numa_spread.cpp` (libnuma and `pthread_setaffinity_np` by their documented behaviour) |
| `Model/NumaTrace` | the same with `LIB842_STREAM_INDEPTH_TRACE`: `cpu_set_to_string` and the output |
| `Model/ClSample` | `sample/compdecomp_cl.cpp`, `CLHostDecompressor::decompress` in `cl842decompress.cpp` 346-457 (the OpenCL runtime does not fail) |
| `Model/OclInterleave` | the kernel of `decompress.cl` as a program of single reads and stores to the output, and the interleaved steps of all work items of a launch |
| `Model/CudaInterleave` | the CUDA kernel `842_decompress.cu` as a program of single reads and stores to the output, and the interleaved steps of all threads of a launch |
| `Model/ClHost` | `CLHostDecompressor::findDevices` and the whole of `CLHostDecompressor::decompress`, with its optional arrays, `cl842decompress.cpp` 267-457 |
| `Model/ClThreads` | `cl842_decompress` called by several threads, `cl842decompress.cpp` 461-477 with 348-457 and 43-79: device memory, queue and events, failures of the runtime; copies and kernels are one step each |
| `Model/StreamSample` | `sample/compdecomp_streams.cpp` (`compress_benchmark_core`, `main`; a callback takes effect at once, no timing, no logging, default thread policy) |

General simplifications

* Buffers passed to one call do not alias, except where aliasing is the subject
  (C46, in-place OpenCL chunks).
* `malloc`/`new` succeed, except in `Model/Cryptodev`, `Model/SwHeap`, `Model/OptHeap` and where a file of the program
  cache announces a length (C59).
* Sizes are natural numbers, truncated where the code truncates (`unsigned int`, `u32`,
  `uint8_t` ...); `size_t` is 64 bits.  C108 proves for both software compressors,
  both software decompressors, the OpenCL kernel and the CUDA kernel that the types of the code give the same results.
  Diagnostics on stderr are left out.
* A C++ mutex section is one atomic step of a transition system (C99, C101, C103 and C104 do without
  this for the latch, the barrier and the two streams, C109 for the streams on their barriers); condition variables may
  wake up spuriously.  Executions are interleavings (sequential consistency); C65 shows
  that there are no data races on non-atomic members but for the loop test of `_quit`, and
  the only atomic uses the default memory order.
* OpenCL and CUDA work items run one after another in an arbitrary order in
  `Model/OclKernel`, `Model/Cuda` and what is built on them; C82 and C83 show that true
  interleavings of the work items give the same results.  Interleavings are sequentially
  consistent, and one load or store is one step.
* The iterations of OpenMP loops run one after another in `Model/Sample` and `Model/Condense`;
  C91 shows that all interleavings give the same results.  The same holds for the worker threads of `Model/Pgasus` and C111.
* The operating system (ioctl results, files, threads) is nondeterministic.

Not modelled: the AIX calls behind `src/aix/aix.c`,
`hw842_decompress` of the HLS code (under `NOSYNTH`, which is defined nowhere, and not valid C++), uthash itself, `contrib/`,
`test/` (but for its data, see below), `USE_STREAMS` in `sample/compdecomp.cu`, the build system, compiler and hardware.
Of the switches of the preprocessor these are left out as they change no result: `LIB842_STREAM_INDEPTH_TRACE` in the two
streams (counters and times of one thread, written when it ends; its part in `numa_spread.cpp` is modelled), `__x86_64__` in
`src/common/endianness.h` (the instructions `xchgb` and `bswap` in place of the shifts, which are modelled), `__STDC_NO_THREADS__` in
`src/cryptodev` (other names for the same functions) and the part of `sample/compdecomp_streams.cpp` under `#if 0`.

Agreement of the models with the code is not proved (it is part of the trusted base).  Two things support
it: every definition cites its lines, and `Verif/Validation.lean` evaluates the models on the test data of the
project (`test/test_patterns.c` and the expectations of the programs in `test/`).  In particular the model of
`sw842_compress` reproduces every recorded stream exactly, including the one of 640 bytes for 800 bytes of text.

## 5. Axioms

`#print axioms` over every property theorem gives only `propext`, `Classical.choice`
and `Quot.sound` (many need a subset).

## 6. Findings

Properties that turned out to be false are recorded with a proved negation
(`*_false`, concrete witness) and the strongest true statement (`*_partial` or an exact
characterisation).

| id | finding |
|----|---------|
| C02, C28 | `sw842_decompress` keeps output length checks in 32 bits: valid streams of more than `UINT_MAX` output bytes are rejected |
| C05 | a repeat op after 1 to 7 bytes of short data reads before the output buffer |
| C08 | `optsw842_compress` fails without clearing `*olen` if the length is not a multiple of 8 |
| C22 | the CUDA decoder does not reject references to unwritten dictionary slots |
| C27 | the optimised decoder neither knows short data nor accepts streams cut inside a word |
| C29, C30 | `trivial_chunked.h` computes offsets in 32 bits; chunked calls return 0 whatever happens; 2^32 or more chunks never return |
| C36 | `Block::get_chunk` asserts the wrong sense; debug builds abort on raw chunks |
| C38 | `handle_block` of the decompression stream ignores errors of single chunks in release builds |
| C44 | the OpenCL decoder reads the CRC but never checks it |
| C45 | an incompressible chunk that begins with the marker is decompressed |
| C46 | in-place chunks: the output may overtake the part of the input not yet read; chunks of up to 640 bytes are safe, at 648 bytes the wrong data can even be reported as success |
| C48 | the HLS tokenizer does not know short data; its bit count wraps in the last iteration of a truncated stream (not used afterwards) |
| C49 | the `static_log2.h` ladder is wrong for 1, 2, 3 |
| C54 | `create_thread_ctx_key` resets the error it just stored |
| C55 | `returnValues` and `chunkShuffleMap` are swapped between declaration and definition |
| C56 | `cl842_decompress` with more than 99999 bytes is undefined; it overwrites the whole output buffer, the part after the data with uninitialised device memory (`cl842decompress.cpp` 425-436) |
| C57 | the OpenCL kernel reads or writes outside its buffers in four situations |
| C59 | an unwritable cache directory or a damaged file makes a successful build fail |
| C60 | `cl2c` exits with 0 if a file cannot be opened |
| C61 | `compdecomp` on an empty file: fails with the serial implementation, undefined with the optimised one (aligned buffers) |
| C63 | the `BRANCH_FREE` configuration shifts 64-bit words by 64, which is undefined; harmless on the processors in use |
| C64 | `optsw842_compress` hashes only groups it looks a template up for, but updates the tables after every group: a zero group evicts the group before it from the dictionary (less compression, no wrong data) |
| C70 | `sw842_compress` codes a run of zero groups as zeros op plus repeat op even if the repeat op stands for one or two groups, where one or two more zeros ops (5 bits each) are shorter than the repeat op (11 bits): up to 29/23 of the shortest stream, a factor that is reached (`C70_ratio_tight`). |
| C71 | `sw842_compress` does not check the results of `malloc` (lines 188, 195, 541): without memory it dereferences a null pointer. |
| C107 | `optsw842_compress` does not check the results of `malloc` and `stream_open` (lines 586, 601): without memory it dereferences a null pointer. |
| C65 | `while (!_quit)` of the stream threads reads `_quit` without the mutex while the destructor writes it: a data race |
| C67 | the OpenCL sample sums up `*olen` in an `int` (`std::accumulate(…, 0)`): wrong from 2 GiB of compressed data on; with `USE_MAYBE_COMPRESSED_CHUNKS` it fails on incompressible chunks that begin with the marker |
| C68 | `compdecomp_streams.cpp` 170 sets `comp_error = false` without the mutex after `cstream.start`: data race with the block callback (harmless for the result, since `finalize` reports failures again); like C61 the program fails on an empty file |
| C75 | with `DISABLE_CRC` the fallback to the serial version for unaligned buffers still writes and expects a CRC: streams written from aligned buffers cannot be decompressed to unaligned ones |
| C76 | `compdecomp_pgasus*`: out of bounds for an empty file (`chunkEndLocal` wraps to 2^64 - 1) and on machines whose nodes have different numbers of CPUs; `int file_length` truncates: of a file of 2^32 + 5 bytes only the first chunks are processed and "successful" is printed; a file of 3 GiB fails for want of memory; fewer worker threads than CPUs leave chunks out |
| C47 | `842_decompress.cu` 137-141: the offsets of a chunk are computed with `unsigned int` and wrap: with more than 2^24 threads in a launch, thread i reads the stream of chunk i - 2^24 |
| C77 | `compdecomp.cu`: files of more than 16 GiB fail for that reason; an empty file makes `optsw842_compress` read out of bounds; a failure is reported with exit status 0 |
| C78 | `numa_spread.cpp`: a node without CPUs gives an empty CPU set, `pthread_setaffinity_np` fails with `EINVAL` and all further threads stay unbound; the loop over CPUs ends at `get_nprocs()`, the number of CPUs online, so that with gaps in their numbers some are never used |
| C79 | `842_interface.c` 332-337: `get_hw842_implementation` writes the static table without synchronisation: a data race if two threads call it first |
| C80 | `cl.h` 91-99, `decompress.cl` 438: the output sizes, 'only for error-checking' and optional, are what keeps a chunk within its slot; without them a chunk that is too long overwrites the next one |
| C81 | `cl842decompress.cpp` 303-317: only GPUs and CPUs are looked for; a query that fails on one platform makes the devices of the others unusable |
| C82 | `decompress.cl` 250-251, 259: a reference to 2 bytes reads 4, and before the room is checked; in a corrupt chunk that fills its slot this reads the first bytes of the next one, a data race with the work item that stores there |
| C83 | `842_decompress.cu` 137-141: with more than 2^25 threads the offsets wrap and two threads store to the same chunk; 184-208: a reference in a corrupt chunk is not checked and may read what another thread stores |
| C84 | `compdecomp.c` 148-173, 183-197 (`CONDENSE`): a chunk that does not compress is condensed with `memcpy(..., SIZE_MAX)`; batches look for their chunks at multiples of 64 KiB in the condensed buffer and read beyond its end; 207-209: with single chunks the result of the decompressor is ignored |
| C86 | `crc32_be` is called with the initial value 0 and without the length (`842_compress.c`, `842_decompress.c`, format): a wrong repeat count in a run of zeros at the beginning is not noticed; one wrong bit in a reference need not be noticed either |
| C88 | without `LIB842_CUDA_STRICT` the kernel reads indices of 9, 8 and 7 bits (`src/cuda/842-internal.h` 11-15) while `optsw842_compress` keeps writing 8, 9 and 8: references are misread |
| C89 | `decompress.cl` with `USE_LOOKAHEAD_BUFFER` but without `ENABLE_ERROR_HANDLING` does not compile: lines 131 and 282-287 use `istart` and `ilen`, which lines 49-54 declare only with error handling |
| C89 | in place without look-ahead buffer, chunks the host packs are corrupted (40 zero bytes and 24 others); with it the limit is six words (C46) |
| C89 | without `ENABLE_ERROR_HANDLING` op codes 0x1a, 0x1d and 0x1f are executed as templates that do not exist, and `ilen`, `olen` are ignored |
| C90 | two 8-byte groups whose values collide in all three hash tables (`194 28 245 31 66 102 141 1` and `25 24 151 90 36 198 1 18`), alternating: `optsw842_compress` expands the data (69 bits per 64), `sw842_compress` needs 13 bits per group |
| C90 | every other group zero: `optsw842_compress` encodes all other groups as literals, even if they are all equal |
| C93 | `aix.c` 27-28 prefers an alignment of 128 but requires 4096: the samples and the streams allocate their buffers with 128; `842_interface.c` 263-264, 337: the required alignment may exceed the preferred one, a page; `compdecomp.c` 156, 184: condensed chunks have no alignment at all |
| C95 | `sw842_compress` may clear up to three bytes of the output buffer behind the stream it reports (within the capacity given): `add_bits` stores 4 or 8 bytes at a time (842_compress.c 265-280) |
| C97 | `optsw842_decompress` answers an input that is too short with `-EINVAL`, like a damaged one (`C97_opt_false`); `sw842_decompress` distinguishes them |
| C98 | `cl842decompress.cpp` 199-217: the options are written to a stream with the global locale; in a program that has set one with digit grouping (`en_US`) the kernel is compiled with `CL842_CHUNK_SIZE=65,536` |
| C100 | CUDA: a reference to words that have not been written is not detected and copies old contents of device memory into the output, without an error (`C100_cuda_copies`). The number of stored words and the size of buffer needed do not depend on the old contents (`C100_cuda_partial`). |
| C102 / short data | a prefix can need more room than the whole: 7 zero bytes give 16 bytes, 8 zero bytes give 8 (`C102_sw_size_false`). |
| C115 | with `BRANCH_FREE` and without `ENABLE_ERROR_HANDLING` the decompressor executes op codes that do not exist (842_decompress.cpp 188-193 is part of the error handling; without `BRANCH_FREE` lines 536-538 reject them in every build): a stream with op 31 is accepted, even with a correct CRC, and the op for short data gives undefined behaviour |
| C116 | with `LIB842_STREAM_INDEPTH_TRACE` a node without CPUs makes `cpu_set_to_string` call `pop_back` on an empty string: undefined behaviour in the first call, even if no thread would be assigned to the node |

Further observations, without a theorem of their own: the CUDA code shifts 64-bit words by
64 too (defined in PTX, not in C++);
`get_hw842_implementation` caches the alignment without synchronisation;
`sample/compdecomp.cu` passes a null `FILE *` to `fseek` if the file cannot be opened, uses uninitialised pointers
with more than one argument, and does not compile with `USE_STREAMS` (`compressedH`, `decompressedH` not declared).

## 7. Seeded bugs

`seeded/LOG.jsonl` has one line per wrong version of the model that was built in a copy outside this directory.

* `failed`: what Lean refused in the first module that did not build. The builds stop there, so later failures are not listed. Mostly these are
  lemmas on the way to a property theorem: such a failure shows that the proof as written does not go through, not in itself that the theorem is false.
  Where a proof script broke for its form only, it was repaired in the copy if that was noticed; the entry says so.
* `property_theorems_downstream`: theorems of the property concerned in modules that are, or import, the module that failed. This is derived from the
  imports, not from separate proof attempts.
* An entry with empty `failed` had no located error; see its note. A build that runs out of memory in an example that has become false says
  nothing about the theorems; `oh-*`, `ch-05`, `ch-12`, `ch-14`, `ch-15`, `oi-11` and `olk-06` were repeated
  without the examples or with a memory limit for that reason.
* `survived`: nothing failed. Either the edit does not change what is computed, or a theorem was added or tightened (`tightened`).
