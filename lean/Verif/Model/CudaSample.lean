import Verif.Model.Cuda
import Verif.Model.Sample
/-!
# The CUDA sample (`sample/compdecomp.cu`)

Without options and with `USE_UNIFIED_MEM` (the parameter `unified`); `USE_STREAMS` does not compile
(`compressedH` and `decompressedH`, 181, 193, are not declared).

Simplifications: a CUDA device is there, the CUDA functions succeed, launches of the same stream run one after the other;
device memory has the layout of host memory.  The threads of a launch and the iterations of the OpenMP loop run one
after the other in an arbitrary order.  Times and output to the terminal are left out, but for the last message.
-/

namespace Lib842

/-- The command line: no argument; one, with the contents of the file unless it cannot be opened; more (/repo/sample/compdecomp.cu 69-103) -/
inductive CuArgs where
  | none
  | file (contents : Option (List Byte))
  | more
  deriving DecidableEq, Repr

/-- What is left at the end: whether the message is "Compression- and decompression was successful!", the exit status
and `decompressed` (/repo/sample/compdecomp.cu 271-296) -/
structure CuOut where
  success : Bool
  status : Nat
  dec : List Byte
  deriving DecidableEq, Repr

/-- `CHUNKS_PER_THREAD`, compdecomp.cu 13-17 -/
def cuChunksPerThread (unified : Bool) : Nat := if unified then 32 else 1024

/-- One iteration of the compression loop, compdecomp.cu 154-167; the state is `compressed` and
`compressedChunkSizes`.  The returned value is ignored. -/
def cuCompress (f : ChunkFn) (ain aout : Nat) (inp : List Byte) (i : Nat) (m : List Byte × List Nat) :
    BRes (List Byte × List Nat) := do
  let src ← BRes.access (readBytes inp (cudaChunkSize * i) cudaChunkSize)
  let dst ← BRes.access (readBytes m.1 (cudaChunkSize * 2 * i) (cudaChunkSize * 2))
  match f (ain + cudaChunkSize * i) (aout + cudaChunkSize * 2 * i) src dst with
  | .ub => .ub
  | .timeout => .timeout
  | .ret _ n buf => do
    let out ← BRes.access (writeBytes m.1 (cudaChunkSize * 2 * i) buf)
    let _ ← BRes.access m.2[i]?
    .ok (out, m.2.set i n)

/-- One launch of the unified version, compdecomp.cu 205-215: the chunks from `i` on; the pointers are computed with
`size_t`.  `ord` gives the order of the threads. -/
def cuLaunchAt (comp : List Byte) (ord : List Nat → List Nat) (cpk i : Nat) (dec : List Byte) : BRes (List Byte) := do
  let src ← ptrAdd (some comp) (8 * (i * (cudaChunkSize / 8) * 2))
  let dst ← ptrAdd (some dec) (8 * (i * (cudaChunkSize / 8)))
  let out ← BRes.access (cudaLaunch (src.getD []) (ord (List.range (cpk / 32 * 32))) (dst.getD []))
  .ok (dec.take (8 * (i * (cudaChunkSize / 8))) ++ out)

/-- `memcmp`, compdecomp.cu 271-276, and `return 0`, 296 -/
def cuFinish (inp dec : List Byte) : BRes CuOut := do
  let d ← BRes.access (readBytes dec 0 inp.length)
  .ok ⟨decide (inp = d), 0, dec⟩

/-- The part for more than one chunk, compdecomp.cu 144-248: `num` chunks -/
def cuMany (unified : Bool) (f : ChunkFn) (ain aout : Nat) (sizes : List Nat) (ord1 : List Nat → List Nat)
    (ord2 : Nat → List Nat → List Nat) (inp : List Byte) (olen : Nat) : BRes CuOut := do
  let num := inp.length / cudaChunkSize
  let m ← forEach (cuCompress f ain aout inp) (ord1 (List.range num)) (List.replicate olen 0, sizes)
  let dec ← if unified then
      let cpk := cuChunksPerThread unified * 32
      forEach (fun k => cuLaunchAt m.1 (ord2 k) cpk (k * cpk)) (List.range ((num + cpk - 1) / cpk)) (List.replicate inp.length 0)
    else
      BRes.access (cudaLaunch m.1 (ord2 0 (List.range (num / 32 * 32))) (List.replicate inp.length 0))
  cuFinish inp dec

/-- The part for at most one chunk, compdecomp.cu 249-269.  Without `unified` only the `olen` bytes announced are
copied to the device. -/
def cuOne (unified : Bool) (f : ChunkFn) (ain aout : Nat) (inp : List Byte) (olen : Nat) : BRes CuOut :=
  match f ain aout inp (List.replicate olen 0) with
  | .ub => .ub
  | .timeout => .timeout
  | .ret _ n buf => do
    let dev ← if unified then .ok buf else do
      let b ← BRes.access (readBytes buf 0 n)
      .ok (b ++ List.replicate (olen - n) 0)
    let dec ← BRes.access (cudaLaunch dev [0] (List.replicate inp.length 0))
    cuFinish inp dec

/-- `main`, compdecomp.cu 40-297.  With a file that cannot be opened `fseek` gets a null pointer; with more than one
argument nothing is allocated and `ilen` is 0, and `in` is passed on uninitialised. -/
def cuMain (unified : Bool) (f : ChunkFn) (ain aout : Nat) (sizes : Nat → List Nat) (ord1 : List Nat → List Nat)
    (ord2 : Nat → List Nat → List Nat) (args : CuArgs) : BRes CuOut :=
  match args with
  | .more | .file none => .ub
  | .none => run testString
  | .file (some contents) => do
    run (← readFile contents (cudaChunkSize * cuChunksPerThread unified * 32))
where
  run (inp : List Byte) : BRes CuOut :=
    if inp.length > cudaChunkSize then
      cuMany unified f ain aout (sizes (inp.length / cudaChunkSize)) ord1 ord2 inp (inp.length * 2)
    else cuOne unified f ain aout inp (inp.length * 2)

end Lib842
