import Verif.Model.StreamBlock
/-!
# The sample program `compdecomp` for implementations in main memory

`sample/compdecomp.c` and `sample/compdecomp_driver.c` (default configuration: `CHUNKS_PER_BATCH`
= 16, no `CONDENSE`).

An OpenMP `parallel for` runs its iterations one after the other in an arbitrary order (a list of the
values of the loop counter); iterations write disjoint parts of the shared arrays.

Simplifications: allocations succeed; times and output to the terminal are left out.  Memory that is
not initialised has arbitrary contents (`SampleJunk`).
-/

namespace Lib842

/-- `struct lib842_implementation`, include/lib842/common.h 55-62 -/
structure Impl where
  compress : ChunkFn
  decompress : ChunkFn
  compressChunked : ChunkedFn
  decompressChunked : ChunkedFn
  requiredAlignment : Nat
  preferredAlignment : Nat

/-- An implementation with the trivial chunked functions (/repo/include/lib842/common.h 55-62, /repo/src/common/trivial_chunked.h 11-29) -/
def Impl.trivial (f g : ChunkFn) (req pref : Nat) : Impl := ⟨f, g, trivialChunked f, trivialChunked g, req, pref⟩

/-- `CHUNKS_PER_BATCH`, compdecomp.c 26 -/
def chunksPerBatch : Nat := 16
/-- `CHUNK_SIZE`, `CHUNK_STRIDE`, compdecomp.c 30-32 -/
def sampleChunk : Nat := 65536

/-- Uninitialised memory: `chunk_rets` of every batch (105, 193) and the two arrays of sizes
(74, 79) -/
structure SampleJunk where
  rets1 : Nat → List (Option Errno)
  rets2 : Nat → List (Option Errno)
  sizes1 : List Nat
  sizes2 : List Nat

/-- Shared memory of one of the two loops: `out`/`decompressed`, the array of sizes, `omp_success` (/repo/sample/compdecomp.c 45, 52, 59, 74, 79) -/
structure OmpMem where
  buf : List Byte
  sizes : List Nat
  success : Bool
  deriving DecidableEq, Repr

/-- `for (i = 0; i < n; i++) sizes[k + i] = v`, compdecomp.c 102-103, 190-191 -/
def fillSizes (sizes : List Nat) (k n v : Nat) : Option (List Nat) :=
  if k + n ≤ sizes.length then some (sizes.take k ++ List.replicate n v ++ sizes.drop (k + n)) else none

/-- Loop body, compdecomp.c 111-113, `err` = 0 -/
def markIncompressible (rets : List (Option Errno)) (k c : Nat) (sizes : List Nat) : BRes (List Nat) := do
  let r ← BRes.access rets[c]?
  if r = some .ENOSPC then
    BRes.access (if k + c < sizes.length then some (sizes.set (k + c) SIZE_MAX) else none)
  else .ok sizes

/-- A loop over a list of counter values (/repo/sample/compdecomp.c 95-96, 110, 179-180, 198) -/
def forEach {α : Type} (body : Nat → α → BRes α) : List Nat → α → BRes α
  | [], a => .ok a
  | i :: is, a => do forEach body is (← body i a)

/-- `batch_chunks`, compdecomp.c 97-98, 181-182 -/
def batchChunks (num k : Nat) : Nat := if num - k < chunksPerBatch then num - k else chunksPerBatch

/-- The values of `chunk_num`, compdecomp.c 96, 180 -/
def batchStarts (num : Nat) : List Nat := (List.range num).filter (· % chunksPerBatch = 0)

/-- Body of the compression loop, compdecomp.c 97-131; `ain`, `aout` are the addresses of `in` and
`out`. -/
def compBatch (impl : Impl) (ain aout : Nat) (inp : List Byte) (num : Nat) (rets0 : Nat → List (Option Errno)) (k : Nat)
    (m : OmpMem) : BRes OmpMem := do
  let n := batchChunks num k
  let cin ← ptrAdd (some inp) (sampleChunk * k)
  let cout ← ptrAdd (some m.buf) (sampleChunk * k)
  let sizes ← BRes.access (fillSizes m.sizes k n sampleChunk)
  match impl.compressChunked (ain + sampleChunk * k) (aout + sampleChunk * k) n sampleChunk sampleChunk (cin.getD [])
      (List.replicate chunksPerBatch sampleChunk) ⟨rets0 k, cout.getD [], sizes.drop k⟩ with
  | .ub => .ub
  | .timeout => .timeout
  | .err _ s | .ok (some _) s =>
    .ok ⟨m.buf.take (sampleChunk * k) ++ s.out, sizes.take k ++ s.olens, false⟩
  | .ok none s => do
    let sizes ← forEach (markIncompressible s.rets k) (List.range n) (sizes.take k ++ s.olens)
    .ok ⟨m.buf.take (sampleChunk * k) ++ s.out, sizes, m.success⟩

/-- Loop body, compdecomp.c 199-203: chunks that are not compressed are copied from the input. -/
def copyRaw (inp : List Byte) (csizes : List Nat) (k c : Nat) (m : OmpMem) : BRes OmpMem := do
  let n ← BRes.access csizes[k + c]?
  if n = SIZE_MAX then do
    let bytes ← BRes.access (readBytes inp (sampleChunk * (k + c)) sampleChunk)
    let buf ← BRes.access (writeBytes m.buf (sampleChunk * (k + c)) bytes)
    let sizes ← BRes.access (if k + c < m.sizes.length then some (m.sizes.set (c + k) sampleChunk) else none)
    .ok ⟨buf, sizes, m.success⟩
  else .ok m

/-- Body of the decompression loop, compdecomp.c 181-227; `aout`, `adec` are the addresses of `out`
and `decompressed`. -/
def decompBatch (impl : Impl) (aout adec : Nat) (inp out : List Byte) (csizes : List Nat) (num : Nat)
    (rets0 : Nat → List (Option Errno)) (k : Nat) (m : OmpMem) : BRes OmpMem := do
  let n := batchChunks num k
  let cout ← ptrAdd (some out) (sampleChunk * k)
  let cdec ← ptrAdd (some m.buf) (sampleChunk * k)
  let sizes ← BRes.access (fillSizes m.sizes k n sampleChunk)
  match impl.decompressChunked (aout + sampleChunk * k) (adec + sampleChunk * k) n sampleChunk sampleChunk (cout.getD [])
      (csizes.drop k) ⟨rets0 k, cdec.getD [], sizes.drop k⟩ with
  | .ub => .ub
  | .timeout => .timeout
  | .err _ s | .ok (some _) s =>
    forEach (copyRaw inp csizes k) (List.range n)
      ⟨m.buf.take (sampleChunk * k) ++ s.out, sizes.take k ++ s.olens, false⟩
  | .ok none s =>
    forEach (copyRaw inp csizes k) (List.range n)
      ⟨m.buf.take (sampleChunk * k) ++ s.out, sizes.take k ++ s.olens, m.success⟩

/-- Result of `compress_benchmark_core`: the return value, `*olen` if it was set, and the contents
of `decompressed` at the end (/repo/sample/compdecomp.c 36-40, 59) -/
structure BenchRes where
  ret : Bool
  olen : Option Nat
  decompressed : List Byte
  deriving DecidableEq, Repr

/-- `compress_benchmark_core`, compdecomp.c 36-268; `ord1`, `ord2`: the orders in which the iterations
of the two loops run. -/
def benchCore (impl : Impl) (ain aout adec : Nat) (inp : List Byte) (j : SampleJunk) (ord1 ord2 : List Nat) :
    BRes BenchRes :=
  if chunksPerBatch > 1 ∧ sampleChunk % impl.requiredAlignment ≠ 0 then .ok ⟨false, none, []⟩
  else do
    let num := inp.length / sampleChunk
    let dec0 := List.replicate inp.length 0
    let m ← forEach (compBatch impl ain aout inp num j.rets1) ord1
      ⟨List.replicate (inp.length / sampleChunk * sampleChunk) 0, j.sizes1, true⟩
    if m.success = false then .ok ⟨false, none, dec0⟩
    else do
      let olen := (m.sizes.map fun n => if n ≠ SIZE_MAX then n else sampleChunk).sum
      let d ← forEach (decompBatch impl aout adec inp m.buf m.sizes num j.rets2) ord2 ⟨dec0, j.sizes2, true⟩
      if d.success = false then .ok ⟨false, some olen, d.buf⟩
      else if inp.length ≠ d.sizes.sum ∨ inp ≠ d.buf then .ok ⟨false, some olen, d.buf⟩
      else .ok ⟨true, some olen, d.buf⟩

/-- `simple_test_core`, compdecomp.c 270-291, and `simple_test`, compdecomp_driver.c 118-149: the
return value and `decompressed`. -/
def simpleTest (impl : Impl) (ain aout adec : Nat) (inp out dec : List Byte) : BRes (Bool × List Byte) :=
  match impl.compress ain aout inp out with
  | .ub => .ub
  | .timeout => .timeout
  | .ret (some _) _ _ => .ok (false, dec)
  | .ret none olen out => do
    let src ← BRes.access (readBytes out 0 olen)
    match impl.decompress aout adec src dec with
    | .ub => .ub
    | .timeout => .timeout
    | .ret (some _) _ dec => .ok (false, dec)
    | .ret none dlen dec => do
      -- 131-139: both buffers are printed
      let _ ← BRes.access (readBytes out 0 olen)
      let _ ← BRes.access (readBytes dec 0 dlen)
      if inp.length ≠ dlen then .ok (false, dec)
      else do
        let d ← BRes.access (readBytes dec 0 inp.length)
        .ok (decide (inp = d), dec)

/-- `nextMultipleOfChunkSize`, compdecomp_driver.c 17-20 -/
def nextMultipleOfChunkSize (input chunk : Nat) : Nat :=
  ((BitVec.ofNat 64 input + (BitVec.ofNat 64 chunk - 1)) &&& ~~~(BitVec.ofNat 64 chunk - 1)).toNat

/-- `read_file`, compdecomp_driver.c 22-70, for a file that can be read, with the given contents -/
def readFile (file : List Byte) (chunk : Nat) : BRes (List Byte) :=
  BRes.access (writeBytes (List.replicate (nextMultipleOfChunkSize file.length chunk) 0) 0 file)

/-- `TEST_STRING`, compdecomp_driver.c 73-78 -/
def testString : List Byte :=
  [0x30, 0x30, 0x31, 0x31, 0x32, 0x32, 0x33, 0x33, 0x34, 0x34, 0x35, 0x35, 0x36, 0x36, 0x37, 0x37,
   0x38, 0x38, 0x39, 0x39, 0x40, 0x40, 0x41, 0x41, 0x42, 0x42, 0x43, 0x43, 0x44, 0x44, 0x45, 0x45]

/-- `compdecomp`, compdecomp_driver.c 153-201, called from `main`, compdecomp.c 293-296: `file` is
`none` without an argument, `some none` if the file cannot be read.  The result tells whether
the exit status is `EXIT_SUCCESS`. -/
def compdecomp (impl : Impl) (ain aout adec : Nat) (j : SampleJunk) (sched1 sched2 : List Nat → List Nat)
    (file : Option (Option (List Byte))) : BRes Bool :=
  match file with
  | some none => .ok false
  | some (some contents) => do run (← readFile contents sampleChunk)
  | none => run testString
where
  /-- 160-198 -/
  run (inp : List Byte) : BRes Bool :=
    if inp.length > sampleChunk then do
      let starts := batchStarts (inp.length / sampleChunk)
      let r ← benchCore impl ain aout adec inp j (sched1 starts) (sched2 starts)
      .ok r.ret
    else do
      let (r, _) ← simpleTest impl ain aout adec inp (List.replicate (inp.length * 2) 0) (List.replicate inp.length 0)
      .ok r

end Lib842
