import Verif.Model.Call
import Verif.Model.SwDecomp
import Verif.Model.Templates
/-!
# CUDA decompressor (`/repo/src/cuda/842_decompress.cu`)

Modelled in the configuration of the public header (`LIB842_CUDA_STRICT` defined,
`/repo/include/lib842/cuda.h` 10-11).  The kernel runs on a little-endian device.

It checks nothing: an opcode without a row in `dec_templates`, a read outside the input
and an access outside the output are undefined behaviour.  Shifts follow PTX (an amount
of 64 or more gives 0): `read_bits(&p, 0)`, which happens for every unused template slot,
shifts by 64, and so does reading 64 bits with an empty window.

Simplification: the object `buf` starts at `p.ostart`, so a repeat op at the start of a
chunk is undefined (in the kernel it copies the last word of the chunk before).
-/

namespace Lib842

/-- `struct sw842_param_decomp`, 842_decompress.cu 3-9.  `inp` is the input object from the
chunk on, `word` is `p->in` relative to it, `out` is `p->out - p->ostart`. -/
structure CudaP where
  inp : List Byte
  word : Nat
  buf : List Byte
  out : Nat
  bits : Nat
  buffer : BitVec 64
  deriving DecidableEq, Repr

/-- `read_bits`, 842_decompress.cu 76-101 -/
def cudaReadBits (n : Nat) : M CudaP (BitVec 64) := do
  let p ← M.get
  let value := if n ≤ 0 then 0#64 else p.buffer >>> (64 - n)
  if p.bits < n then do
    let w ← M.access fun p => (load64 .little p.inp (8 * p.word)).map swap64
    M.modify fun q => { q with
      word := q.word + 1
      bits := p.bits + 64 - n
      buffer := (w <<< (n - p.bits)) * (if p.bits + 64 - n > 0 then 1#64 else 0#64) }
    pure (value ||| w >>> (64 - (n - p.bits)))
  else do
    M.modify fun q => { q with bits := p.bits - n, buffer := p.buffer <<< n }
    pure value

/-- `get_index`, 842_decompress.cu 104-131: the same computation as in the serial version,
without the check. -/
def cudaGetIndex (p : CudaP) (size index fsize : Nat) : Nat := indexOffset index size fsize (8 * p.out)

/-- The inline assembly, 842_decompress.cu 195-229: 16-bit loads, combined in little-endian
order, shifted to the top and byte-swapped. -/
def cudaLoad (dst offset : Nat) : M CudaP (BitVec 64) := do
  let v0 ← M.access fun p => load16 .little p.buf offset
  let r ← if dst > 2 then do
      let v1 ← M.access fun p => load16 .little p.buf (offset + 2)
      if dst = 8 then do
        let v2 ← M.access fun p => load16 .little p.buf (offset + 4)
        let v3 ← M.access fun p => load16 .little p.buf (offset + 6)
        pure (v3 ++ v2 ++ v1 ++ v0)
      else pure ((v1 ++ v0).setWidth 64)
    else pure (v0.setWidth 64)
  pure (swap64 (r <<< (64 - dst <<< 3)))

/-- One iteration of the loop over the fields, 842_decompress.cu 181-233; the locals are
`output_word` and `bits`.  (A `uint32_t` that wraps around is above 63 and shifts
everything out.) -/
def cudaField (t dst : Nat) (l : BitVec 64 × Nat) : M CudaP (BitVec 64 × Nat) := do
  let value ← cudaReadBits (t &&& 0x7F)
  let value ← if t >>> 7 ≠ 0 then do
      let p ← M.get
      let fsize ← M.access fun _ => cudaFifoSizes[dst]?
      cudaLoad dst (cudaGetIndex p dst value.toNat fsize)
    else pure value
  let shifted := if dst <<< 3 + l.2 ≤ 64 then value <<< (64 - dst <<< 3 - l.2) else 0#64
  pure (l.1 ||| shifted, l.2 + dst <<< 3)

/-- The loop, 842_decompress.cu 181-287 -/
def cudaFields : List (Nat × Nat) → BitVec 64 × Nat → M CudaP (BitVec 64 × Nat)
  | [], l => pure l
  | f :: fs, l => do
    let l ← cudaField f.1 f.2 l
    cudaFields fs l

/-- `*p.out++ = bs` (/repo/src/cuda/842_decompress.cu 165-166, 170-171, 288) -/
def cudaPut (bs : List Byte) : M CudaP Unit := do
  M.update fun p => (writeBytes p.buf (8 * p.out) bs).map fun b => { p with buf := b }
  M.modify fun p => { p with out := p.out + 1 }

/-- 842_decompress.cu 164-167 -/
def cudaRepeat : Nat → M CudaP Unit
  | 0 => pure ()
  | k + 1 => do
    let bs ← M.access fun p => if p.out = 0 then none else readBytes p.buf (8 * (p.out - 1)) 8
    cudaPut bs
    cudaRepeat k

/-- One iteration of the main loop, 842_decompress.cu 152-292; returns whether `op` is
`OP_END`. -/
def cudaIter : M CudaP Bool := do
  let op ← cudaReadBits 5
  if op.toNat = 0x1B then do
    let rep ← cudaReadBits 6
    cudaRepeat (rep.toNat + 1)
    pure false
  else if op.toNat = 0x1C then do
    cudaPut (List.replicate 8 0#8)
    pure false
  else if op.toNat = 0x1E then pure true
  else do
    let row ← M.access fun _ => cudaTemplates[op.toNat]?
    let l ← cudaFields row (0#64, 0)
    cudaPut (wordBytes64 .little (swap64 l.1))
    pure false

/-- `cuda842_decompress` for one thread, 842_decompress.cu 134-298: the input object from the
thread's chunk on, the output object from its chunk on; the output afterwards.
`none`: undefined (or not terminated within the fuel). -/
def cudaThread (inp buf : List Byte) : Option (List Byte) :=
  match M.doWhile cudaIter (8 * inp.length + 1)
      { inp := inp, word := 0, buf := buf, out := 0, bits := 0, buffer := 0#64 } with
  | .ok _ p => some p.buf
  | _ => none

/-- `LIB842_CUDA_CHUNK_SIZE`, cuda.h 10 -/
def cudaChunkSize : Nat := 1024

/-- Thread `i` of a launch, 842_decompress.cu 137-141.  The products with `chunk_num` are of type
`unsigned int`: they wrap at 2^32 words. -/
def cudaChunk (inp : List Byte) (buf : List Byte) (i : Nat) : Option (List Byte) :=
  let src := 8 * (cudaChunkSize / 8 * 2 * i % 2 ^ 32)
  let dst := 8 * (cudaChunkSize / 8 * i % 2 ^ 32)
  if inp.length < src ∨ buf.length < dst then none
  else (cudaThread (inp.drop src) (buf.drop dst)).map fun b => buf.take dst ++ b

/-- A launch, its threads running one after the other in the order `order` (/repo/src/cuda/842_decompress.cu 134-140) -/
def cudaLaunch (inp : List Byte) (order : List Nat) (buf : List Byte) : Option (List Byte) :=
  order.foldlM (cudaChunk inp) buf

end Lib842
