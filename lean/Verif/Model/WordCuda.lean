import Verif.Model.Cuda
import Verif.Model.WordDecomp
/-!
# The CUDA decompressor with machine arithmetic (`/repo/src/cuda/842_decompress.cu`)

`Model/Cuda` computes with natural numbers where the code computes with `uint8_t`, `uint16_t`, `uint32_t` and `uint64_t`.  Here all these variables
are words of the width they have in the code, sums and differences wrap around, and `round_down` is the mask of the macro.  Pointers stay offsets
into their object.  A shift by 64 or more gives 0 (PTX).
-/

namespace Lib842

/-- `struct sw842_param_decomp`, 842_decompress.cu 3-9; see `CudaP` for the pointers -/
structure CudaPW where
  inp : List Byte
  word : Nat
  buf : List Byte
  out : Nat
  bits : BitVec 32
  buffer : BitVec 64
  deriving DecidableEq, Repr

/-- `x >> k`, PTX `shr.u64` (/repo/src/cuda/842_decompress.cu 78, 91) -/
def ptxShr (x : BitVec 64) (k : BitVec 32) : BitVec 64 := if k > 63#32 then 0#64 else x >>> k.toNat
/-- `x << k`, PTX `shl.b64` (/repo/src/cuda/842_decompress.cu 92, 97, 215, 232) -/
def ptxShl (x : BitVec 64) (k : BitVec 32) : BitVec 64 := if k > 63#32 then 0#64 else x <<< k.toNat

/-- `read_bits`, 842_decompress.cu 76-101 -/
def cudaReadBitsW (n : BitVec 32) : M CudaPW (BitVec 64) := do
  let p ← M.get
  let value := if n ≤ 0#32 then 0#64 else ptxShr p.buffer (64#32 - n)
  if p.bits < n then do
    let w ← M.access fun p => (load64 .little p.inp (8 * p.word)).map swap64
    let bits := p.bits + (64#32 - n)
    M.modify fun q => { q with
      word := q.word + 1
      bits := bits
      buffer := ptxShl w (n - p.bits) * (if bits > 0#32 then 1#64 else 0#64) }
    pure (value ||| ptxShr w (64#32 - (n - p.bits)))
  else do
    M.modify fun q => { q with bits := p.bits - n, buffer := ptxShl p.buffer n }
    pure value

/-- `get_index`, 842_decompress.cu 104-131 -/
def cudaGetIndexW (p : CudaPW) (size : BitVec 8) (index fsize : BitVec 64) : BitVec 64 :=
  indexOffsetW index (size.setWidth 64) fsize (roundDownW (BitVec.ofNat 64 (8 * p.out)) 8#64)

/-- The inline assembly, 842_decompress.cu 195-229 -/
def cudaLoadW (dst : BitVec 32) (offset : BitVec 64) : M CudaPW (BitVec 64) := do
  let v0 ← M.access fun p => load16 .little p.buf offset.toNat
  let r ← if dst > 2#32 then do
      let v1 ← M.access fun p => load16 .little p.buf (offset + 2#64).toNat
      if dst = 8#32 then do
        let v2 ← M.access fun p => load16 .little p.buf (offset + 4#64).toNat
        let v3 ← M.access fun p => load16 .little p.buf (offset + 6#64).toNat
        pure (v3 ++ v2 ++ v1 ++ v0)
      else pure ((v1 ++ v0).setWidth 64)
    else pure (v0.setWidth 64)
  pure (swap64 (ptxShl r (64#32 - dst <<< 3)))

/-- One iteration of the loop over the fields, 842_decompress.cu 181-233; the locals are `output_word` and `bits` -/
def cudaFieldW (t dst : BitVec 32) (l : BitVec 64 × BitVec 32) : M CudaPW (BitVec 64 × BitVec 32) := do
  let value ← cudaReadBitsW (t &&& 0x7F#32)
  let value ← if t >>> 7 ≠ 0#32 then do
      let p ← M.get
      let fsize ← M.access fun _ => cudaFifoSizes[dst.toNat]?
      cudaLoadW dst (cudaGetIndexW p (dst.setWidth 8) value ((BitVec.ofNat 16 fsize).setWidth 64))
    else pure value
  pure (l.1 ||| ptxShl value (64#32 - dst <<< 3 - l.2), l.2 + dst <<< 3)

/-- The loop, 842_decompress.cu 181-287; the entries of the table are `uint8_t` -/
def cudaFieldsW : List (Nat × Nat) → BitVec 64 × BitVec 32 → M CudaPW (BitVec 64 × BitVec 32)
  | [], l => pure l
  | f :: fs, l => do
    let l ← cudaFieldW ((BitVec.ofNat 8 f.1).setWidth 32) ((BitVec.ofNat 8 f.2).setWidth 32) l
    cudaFieldsW fs l

/-- `*p.out++ = bs` (/repo/src/cuda/842_decompress.cu 165-166, 170-171, 288) -/
def cudaPutW (bs : List Byte) : M CudaPW Unit := do
  M.update fun p => (writeBytes p.buf (8 * p.out) bs).map fun b => { p with buf := b }
  M.modify fun p => { p with out := p.out + 1 }

/-- 842_decompress.cu 164-167 -/
def cudaRepeatW : Nat → M CudaPW Unit
  | 0 => pure ()
  | k + 1 => do
    let bs ← M.access fun p => if p.out = 0 then none else readBytes p.buf (8 * (p.out - 1)) 8
    cudaPutW bs
    cudaRepeatW k

/-- One iteration of the main loop, 842_decompress.cu 152-292 -/
def cudaIterW : M CudaPW Bool := do
  let op ← cudaReadBitsW 5#32
  if op = 0x1B#64 then do
    let rep ← cudaReadBitsW 6#32
    cudaRepeatW (rep + 1#64).toNat
    pure false
  else if op = 0x1C#64 then do
    cudaPutW (List.replicate 8 0#8)
    pure false
  else if op = 0x1E#64 then pure true
  else do
    let row ← M.access fun _ => cudaTemplates[op.toNat]?
    let l ← cudaFieldsW row (0#64, 0#32)
    cudaPutW (wordBytes64 .little (swap64 l.1))
    pure false

/-- `cuda842_decompress` for one thread, 842_decompress.cu 134-298 -/
def cudaThreadW (inp buf : List Byte) : Option (List Byte) :=
  match M.doWhile cudaIterW (8 * inp.length + 1)
      { inp := inp, word := 0, buf := buf, out := 0, bits := 0#32, buffer := 0#64 } with
  | .ok _ p => some p.buf
  | _ => none

/-- Thread `threadIdx.x` of block `blockIdx.x`, 842_decompress.cu 137-141: all of it is computed in `unsigned int` -/
def cudaChunkW (inp : List Byte) (buf : List Byte) (block blockDim thread : BitVec 32) : Option (List Byte) :=
  let i := block * blockDim + thread
  let src := 8 * (256#32 * i).toNat
  let dst := 8 * (128#32 * i).toNat
  if inp.length < src ∨ buf.length < dst then none
  else (cudaThreadW (inp.drop src) (buf.drop dst)).map fun b => buf.take dst ++ b

end Lib842
