import Verif.Model.Cuda
import Verif.Model.Log2
import Verif.Model.OptComp
/-!
# The code without `LIB842_CUDA_STRICT`

`LIB842_CUDA_STRICT` is defined in two places, `/repo/include/lib842/cuda.h` 11 (seen by the CUDA kernel)
and `/repo/src/serial_optimized/842-internal.h` 6 (seen by `optsw842_compress`).  This file models the
parts of both that change when the definitions are removed:

* the main loop of the compressor, which then emits neither repeat nor zeros ops
  (`/repo/src/serial_optimized/842_compress.cpp` 619-645); nothing else in that directory depends on the macro, in
  particular `I2_BITS`, `I4_BITS`, `I8_BITS` remain those of `/repo/src/common/842.h`;
* the widths of the indices in the kernel (`/repo/src/cuda/842-internal.h` 7-16) and its main loop
  (`/repo/src/cuda/842_decompress.cu` 176-180, 234-287, 293-295).

Simplification: the inline assembly 235-286 changes its input operand `value`, which is not allowed but has
no effect unless the compiler keeps the variable for later.
-/

namespace Lib842

/-! ## The compressor -/

/-- The main loop, 842_compress.cpp 611-617, 644, 646-651 -/
def ncompLoop (cf : OConf) (e : Endian) : (fuel : Nat) → M OComp Unit
  | 0 => M.timeout
  | fuel + 1 => do
    let p ← M.get
    if p.core.ilen > 7 then do
      let _next ← M.access fun _ => load64 e p.core.inp p.core.pos
      liftC cf.getNextData
      cf.processNext
      liftC oupdateHashtables
      liftC fun c => some { c with pos := c.pos + 8, ilen := c.ilen - 8 }
      ncompLoop cf e fuel
    else pure ()

/-- The `try` block, 842_compress.cpp 603-671; `repeat_count` is 0 throughout. -/
def ncompBody (cf : OConf) (e : Endian) (addr fuel : Nat) (inp : List Byte) : M OComp Nat := do
  let p ← M.get
  let _first ← M.access fun _ => load64 e p.core.inp p.core.pos
  ncompLoop cf e fuel
  liftS (streamWriteBits e 0x1E#64 5)
  let crc ← M.access fun _ => crc32be e addr 0#32 inp inp.length
  liftS (streamWriteBits e (crc.setWidth 64) 32)
  liftS (streamFlush e)
  let p ← M.get
  pure (8 * p.s.ptr)

/-- `optsw842_compress` without `LIB842_CUDA_STRICT`, 842_compress.cpp 569-682; arguments as for
`optsw842Compress`. -/
def nonstrictCompress (e : Endian) (ain aout : Nat) (j : OptJunk) (jsw : CompJunk) (inp buf : List Byte) : Call :=
  if inp.length % 8 ≠ 0 then .ret (some .EINVAL) buf.length buf
  else if ain % 8 ≠ 0 ∨ aout % 8 ≠ 0 then sw842CompressF (inp.length / 8 + 1) e ain jsw inp buf
  else
    match ncompBody (.std e) e ain (inp.length / 8 + 1) inp (ocompInit j inp buf) with
    | .ok n p => .ret none n p.s.buf
    | .err er p => .ret (some er) 0 p.s.buf
    | .ub => .ub
    | .timeout => .timeout

/-! ## The kernel -/

/-- `I2_BITS`, `I4_BITS`, `I8_BITS`, src/cuda/842-internal.h 11-15 -/
def nsI2 : Nat := (staticLog2 cudaChunkSize - 1).toNat
@[inherit_doc nsI2] def nsI4 : Nat := (staticLog2 cudaChunkSize - 2).toNat
@[inherit_doc nsI2] def nsI8 : Nat := (staticLog2 cudaChunkSize - 3).toNat

/-- `OP_DEC_N0` .. `OP_DEC_I8`, /repo/src/common/842.h 131-137 -/
def nsN0 : Nat × Nat := (0, 0)
@[inherit_doc nsN0] def nsD2 : Nat × Nat := (16 ||| 0, 2)
@[inherit_doc nsN0] def nsD4 : Nat × Nat := (32 ||| 0, 4)
@[inherit_doc nsN0] def nsD8 : Nat × Nat := (64 ||| 0, 8)
@[inherit_doc nsN0] def nsX2 : Nat × Nat := (nsI2 ||| 0x80, 2)
@[inherit_doc nsN0] def nsX4 : Nat × Nat := (nsI4 ||| 0x80, 4)
@[inherit_doc nsN0] def nsX8 : Nat × Nat := (nsI8 ||| 0x80, 8)

/-- `dec_templates`, 842_decompress.cu 26-59 -/
def nsTemplates : List (List (Nat × Nat)) := [
  [nsD8, nsN0, nsN0, nsN0],
  [nsD4, nsD2, nsX2, nsN0],
  [nsD4, nsX2, nsD2, nsN0],
  [nsD4, nsX2, nsX2, nsN0],
  [nsD4, nsX4, nsN0, nsN0],
  [nsD2, nsX2, nsD4, nsN0],
  [nsD2, nsX2, nsD2, nsX2],
  [nsD2, nsX2, nsX2, nsD2],
  [nsD2, nsX2, nsX2, nsX2],
  [nsD2, nsX2, nsX4, nsN0],
  [nsX2, nsD2, nsD4, nsN0],
  [nsX2, nsD4, nsX2, nsN0],
  [nsX2, nsD2, nsX2, nsD2],
  [nsX2, nsD2, nsX2, nsX2],
  [nsX2, nsD2, nsX4, nsN0],
  [nsX2, nsX2, nsD4, nsN0],
  [nsX2, nsX2, nsD2, nsX2],
  [nsX2, nsX2, nsX2, nsD2],
  [nsX2, nsX2, nsX2, nsX2],
  [nsX2, nsX2, nsX4, nsN0],
  [nsX4, nsD4, nsN0, nsN0],
  [nsX4, nsD2, nsX2, nsN0],
  [nsX4, nsX2, nsD2, nsN0],
  [nsX4, nsX2, nsX2, nsN0],
  [nsX4, nsX4, nsN0, nsN0],
  [nsX8, nsN0, nsN0, nsN0]]

/-- One iteration of the loop over the fields, 842_decompress.cu 181-188 and the inline assembly
235-286: an index is multiplied by the size and added to `p.ostart` (250-252), there is no ring buffer.  The predicated loads
254-261 and the shift and byte swap 263-271 are those of the strict version. -/
def nsField (t dst : Nat) (l : BitVec 64 × Nat) : M CudaP (BitVec 64 × Nat) := do
  let value ← cudaReadBits (t &&& 0x7F)
  let value ← if t >>> 7 = 1 then cudaLoad dst (value.toNat * dst) else pure value
  let shifted := if dst <<< 3 + l.2 ≤ 64 then value <<< (64 - dst <<< 3 - l.2) else 0#64
  pure (l.1 ||| shifted, l.2 + dst <<< 3)

/-- The loop, 842_decompress.cu 181-287 -/
def nsFields : List (Nat × Nat) → BitVec 64 × Nat → M CudaP (BitVec 64 × Nat)
  | [], l => pure l
  | f :: fs, l => do
    let l ← nsField f.1 f.2 l
    nsFields fs l

/-- One iteration of the main loop, 842_decompress.cu 177-179, 181-288; returns whether `op` is
`OP_END`.  Every other code selects a row of `dec_templates`. -/
def nsIter : M CudaP Bool := do
  let op ← cudaReadBits 5
  if op.toNat = 0x1E then pure true
  else do
    let row ← M.access fun _ => nsTemplates[op.toNat]?
    let l ← nsFields row (0#64, 0)
    cudaPut (wordBytes64 .little (swap64 l.1))
    pure false

/-- `cuda842_decompress` without `LIB842_CUDA_STRICT` for one thread; arguments and result as for
`cudaThread`. -/
def nsThread (inp buf : List Byte) : Option (List Byte) :=
  match M.doWhile nsIter (8 * inp.length + 1)
      { inp := inp, word := 0, buf := buf, out := 0, bits := 0, buffer := 0#64 } with
  | .ok _ p => some p.buf
  | _ => none

end Lib842
