import Verif.Model.OclKernel
import Verif.Model.Sample
/-!
# The sample program for OpenCL

`/repo/sample/compdecomp_cl.cpp` 17-199 (with the driver `/repo/sample/compdecomp_driver.c`) and
`CLHostDecompressor::decompress`, `/repo/src/ocl/cl842decompress.cpp` 346-457.

The input format, chosen with a macro in the sample, is a parameter, and so is `USE_CHUNK_SHUFFLE_MAP`.
An OpenMP `parallel for` runs its iterations one after the other in an arbitrary order, and so does a
launch with its work items.

Simplifications: allocations succeed, and the OpenCL runtime reports no errors but those for
empty buffers; times and output to the terminal are left out.
-/

namespace Lib842
open Spec

/-- Values the code does not determine: addresses of the input, of `out` and of the temporary buffer, workspace of
the compressor and contents of the temporary buffer in each iteration, contents of the device memory for the
output and of the 64 bytes added to an in-place buffer. -/
structure ClJunk where
  ain : Nat
  aout : Nat
  atmp : Nat → Nat
  opt : Nat → OptJunk
  sw : Nat → CompJunk
  tmp : Nat → List Byte
  dev : List Byte
  devTail : List Byte

/-- `chunkStride`, compdecomp_cl.cpp 33-35 -/
def clStride (fmt : ClFormat) : Nat := if fmt = .always then sampleChunk * 2 else sampleChunk

/-- Shared memory of the compression loop: `out` and `chunk_olens` (/repo/sample/compdecomp_cl.cpp 40, 53) -/
structure ClMem where
  out : List Byte
  olens : List Nat
  deriving DecidableEq, Repr

/-- `chunk_olens[i] = n` (/repo/sample/compdecomp_cl.cpp 95-97) -/
def setAt (l : List Nat) (i n : Nat) : Option (List Nat) := if i < l.length then some (l.set i n) else none

/-- Body of the compression loop, compdecomp_cl.cpp 91-111 and 115-122; the return value of `optsw842_compress` is
not looked at. -/
def clCompChunk (e : Endian) (fmt : ClFormat) (J : ClJunk) (inp : List Byte) (i : Nat) (m : ClMem) : BRes ClMem := do
  let chunk ← BRes.access (readBytes inp (sampleChunk * i) sampleChunk)
  if fmt = .always then
    let dst ← BRes.access (readBytes m.out (sampleChunk * 2 * i) (sampleChunk * 2))
    match optsw842Compress e (J.ain + sampleChunk * i) (J.aout + sampleChunk * 2 * i) (J.opt i) (J.sw i) chunk dst with
    | .ub => .ub
    | .timeout => .timeout
    | .ret _ n b => do
      let out ← BRes.access (writeBytes m.out (sampleChunk * 2 * i) b)
      let olens ← BRes.access (setAt m.olens i n)
      .ok ⟨out, olens⟩
  else
    let old ← BRes.access (readBytes m.out (sampleChunk * i) sampleChunk)
    match optsw842Compress e (J.ain + sampleChunk * i) (J.atmp i) (J.opt i) (J.sw i) chunk (J.tmp i) with
    | .ub => .ub
    | .timeout => .timeout
    | .ret _ n _ => do
      let olens ← BRes.access (setAt m.olens i n)
      let c ← BRes.access (packChunk e (J.ain + sampleChunk * i) (J.atmp i) (J.opt i) (J.sw i) chunk old (J.tmp i))
      let out ← BRes.access (writeBytes m.out (sampleChunk * i) c)
      .ok ⟨out, olens⟩

/-- `*olen = std::accumulate(begin, end, 0)`, compdecomp_cl.cpp 125: the accumulator has the type of the initial
value, `int`; each step computes `acc + n` in `size_t` and converts it back. -/
def accumulateInt (l : List Nat) : Nat :=
  ((l.foldl (fun (a : BitVec 32) n => (a.signExtend 64 + BitVec.ofNat 64 n).setWidth 32) 0#32).signExtend 64).toNat

/-- `chunkShuffleMap`, compdecomp_cl.cpp 137-145: the chunk numbers, stably sorted by
`chunk_olens[i] >= CHUNK_SIZE` (`false` before `true`) -/
def clShuffle (olens : List Nat) : List Nat :=
  (List.range olens.length).filter (fun i => decide (olens.getD i 0 < sampleChunk)) ++
  (List.range olens.length).filter (fun i => decide (¬ olens.getD i 0 < sampleChunk))

/-- `CLHostDecompressor::decompress` without arrays of chunk sizes and return values, cl842decompress.cpp 348-444.
`same`: are `input` and `output` the same pointer?  `out` is the output buffer, `dev` the contents of the device buffer
for the output.  The result is the output buffer, or `none` if an exception is thrown (an OpenCL buffer cannot be
empty). -/
def clHostDecompress (e : Endian) (fmt : ClFormat) (chunkSize stride : Nat) (same : Bool) (inp out : List Byte)
    (shuffle : Option (List Nat)) (dev devTail : List Byte) (order : List Nat) : BRes (Option (List Byte)) :=
  let n := hostNumChunks inp.length stride
  if fmt = .inplace then
    if same = false ∨ inp.length ≠ out.length then .ok none
    else do
      let r ← BRes.access (oclLaunch e fmt chunkSize stride 0 0 [] none none n shuffle order (inp ++ devTail))
      .ok (some (r.buf.take out.length))
  else if same = true ∧ out.length ≠ 0 then .ok none
  else if fmt = .maybe ∧ inp.length ≠ out.length then .ok none
  else if inp.length = 0 then .ok none
  else do
    let r ← BRes.access (oclLaunch e fmt chunkSize stride 0 0 inp none none n shuffle order dev)
    .ok (some (r.buf.take out.length))

/-- `compress_benchmark_core`, compdecomp_cl.cpp 19-169; `ord` is the order of the compression loop, `order` maps the
global size of the launch to the order of its work items. -/
def clBench (e : Endian) (fmt : ClFormat) (useShuffle : Bool) (J : ClJunk) (ord : List Nat) (order : Nat → List Nat)
    (inp : List Byte) : BRes BenchRes := do
  let num := inp.length / sampleChunk
  let m ← forEach (clCompChunk e fmt J inp) ord
    ⟨List.replicate (num * clStride fmt) 0, List.replicate num 0⟩
  let olen := accumulateInt m.olens
  -- 40-46: in place, `decompressed` is `out`
  let same := decide (fmt = .inplace)
  let dec0 := if fmt = .inplace then m.out else List.replicate inp.length 0
  let shuffle := if useShuffle then some (clShuffle m.olens) else none
  let n := oclGlobalSize (hostNumChunks m.out.length (clStride fmt))
  match ← clHostDecompress e fmt sampleChunk (clStride fmt) same m.out dec0 shuffle J.dev J.devTail (order n) with
  | none => .ok ⟨false, some olen, dec0⟩
  | some d => do
    let back ← BRes.access (readBytes d 0 inp.length)
    .ok ⟨decide (inp = back), some olen, d⟩

/-- The functions used by `simple_test_core`, compdecomp_cl.cpp 171-194: `optsw842_compress` and `cl842_decompress` -/
def clImpl (e : Endian) (j : OptJunk) (jsw : CompJunk) (order : List Nat) (dev : Nat → Byte) : Impl :=
  Impl.trivial (fun a o src dst => optsw842Compress e a o j jsw src dst) (fun _ _ src dst => cl842Decompress e order dev src dst) 1 1

/-- `compdecomp`, compdecomp_driver.c 153-201, called from `main`, compdecomp_cl.cpp 196-199; see
`Lib842.compdecomp`. -/
def compdecompCl (e : Endian) (fmt : ClFormat) (useShuffle : Bool) (J : ClJunk) (sched : List Nat → List Nat)
    (order : Nat → List Nat) (file : Option (Option (List Byte))) : BRes Bool :=
  match file with
  | some none => .ok false
  | some (some contents) => do run (← readFile contents sampleChunk)
  | none => run testString
where
  /-- 160-198 -/
  run (inp : List Byte) : BRes Bool :=
    if inp.length > sampleChunk then do
      let r ← clBench e fmt useShuffle J (sched (List.range (inp.length / sampleChunk))) order inp
      .ok r.ret
    else do
      let (r, _) ← simpleTest (clImpl e (J.opt 0) (J.sw 0) (order 256) fun i => J.dev.getD i 0) J.ain J.aout 0 inp
        (List.replicate (inp.length * 2) 0) (List.replicate inp.length 0)
      .ok r

end Lib842
