import Verif.Model.Cuda
import Verif.Model.OclInterleave
/-!
# Threads of a CUDA launch that run at the same time

`/repo/src/cuda/842_decompress.cu` once more, as programs that access the output buffer step by step: every load and
every store of the C text (and of the inline assembly) is one step.  The input buffer is only read (`__restrict__ const`).
Simplification as in `Verif.Model.Cuda`: a repeat op at the start of a chunk is undefined.
-/

namespace Lib842
open Spec

/-- Computations with the local variables `CudaP` (whose field `buf` is not used here) (part of the model only, no counterpart in /repo) -/
def CM (α : Type) := CudaP → MemProg (Outcome CudaP α)

namespace CM

/-- A computation without accesses (part of the model only, no counterpart in /repo). -/
def pure {α : Type} (a : α) : CM α := fun q => .ret (.ok a q)

/-- One computation after the other (part of the model only, no counterpart in /repo). -/
def bind {α β : Type} (x : CM α) (f : α → CM β) : CM β := fun q =>
  (x q).bind fun
    | .ok a q => f a q
    | .err e q => .ret (.err e q)
    | .ub => .ub
    | .timeout => .ret .timeout

instance : Monad CM where
  pure := pure
  bind := bind

/-- The local variables (part of the model only, no counterpart in /repo). -/
def get : CM CudaP := fun q => .ret (.ok q q)
/-- Change the local variables (part of the model only, no counterpart in /repo). -/
def modify (f : CudaP → CudaP) : CM Unit := fun q => .ret (.ok () (f q))
/-- a computation that does not access the output (part of the model only, no counterpart in /repo) -/
def lift {α : Type} (x : M CudaP α) : CM α := fun q =>
  match x q with
  | .ub => .ub
  | o => .ret o
/-- A value that may be undefined (part of the model only, no counterpart in /repo). -/
def opt {α : Type} : Option α → CM α
  | none => fun _ => .ub
  | some a => pure a
/-- A load from the output buffer, as in /repo/src/cuda/842_decompress.cu 165. -/
def load (i k : Nat) : CM (List Byte) := fun q => .read i k fun bs => .ret (.ok bs q)
/-- A store to the output buffer, as in /repo/src/cuda/842_decompress.cu 165, 170, 288. -/
def store (i : Nat) (bs : List Byte) : CM Unit := fun q => .write i bs (.ret (.ok () q))

/-- The loop of /repo/src/cuda/842_decompress.cu 152-292. -/
def doWhile (body : CM Bool) : (fuel : Nat) → CM Unit
  | 0 => fun _ => .ret .timeout
  | fuel + 1 => do
    let done ← body
    if done then pure () else doWhile body fuel

end CM

/-- `ld.global.b16`, 842_decompress.cu 204-207 -/
def cudaLoad16P (offset : Nat) : CM (BitVec 16) := do
  let bs ← CM.load offset 2
  CM.opt (load16 .little bs 0)

/-- The inline assembly, 842_decompress.cu 195-229 -/
def cudaLoadP (dst offset : Nat) : CM (BitVec 64) := do
  let v0 ← cudaLoad16P offset
  let r ← if dst > 2 then do
      let v1 ← cudaLoad16P (offset + 2)
      if dst = 8 then do
        let v2 ← cudaLoad16P (offset + 4)
        let v3 ← cudaLoad16P (offset + 6)
        pure (v3 ++ v2 ++ v1 ++ v0)
      else pure ((v1 ++ v0).setWidth 64)
    else pure (v0.setWidth 64)
  pure (swap64 (r <<< (64 - dst <<< 3)))

/-- One iteration of the loop over the fields, 842_decompress.cu 181-233 -/
def cudaFieldP (t dst : Nat) (l : BitVec 64 × Nat) : CM (BitVec 64 × Nat) := do
  let value ← CM.lift (cudaReadBits (t &&& 0x7F))
  let value ← if t >>> 7 ≠ 0 then do
      let p ← CM.get
      let fsize ← CM.opt cudaFifoSizes[dst]?
      cudaLoadP dst (cudaGetIndex p dst value.toNat fsize)
    else pure value
  let shifted := if dst <<< 3 + l.2 ≤ 64 then value <<< (64 - dst <<< 3 - l.2) else 0#64
  pure (l.1 ||| shifted, l.2 + dst <<< 3)

/-- The loop, 842_decompress.cu 181-287 -/
def cudaFieldsP : List (Nat × Nat) → BitVec 64 × Nat → CM (BitVec 64 × Nat)
  | [], l => pure l
  | f :: fs, l => do
    let l ← cudaFieldP f.1 f.2 l
    cudaFieldsP fs l

/-- `*p.out++ = bs`: one store of 64 bits -/
def cudaPutP (bs : List Byte) : CM Unit := do
  let p ← CM.get
  CM.store (8 * p.out) bs
  CM.modify fun p => { p with out := p.out + 1 }

/-- 842_decompress.cu 164-167 -/
def cudaRepeatP : Nat → CM Unit
  | 0 => pure ()
  | k + 1 => do
    let p ← CM.get
    let bs ← if p.out = 0 then CM.opt none else CM.load (8 * (p.out - 1)) 8
    cudaPutP bs
    cudaRepeatP k

/-- One iteration of the main loop, 842_decompress.cu 152-292 -/
def cudaIterP : CM Bool := do
  let op ← CM.lift (cudaReadBits 5)
  if op.toNat = 0x1B then do
    let rep ← CM.lift (cudaReadBits 6)
    cudaRepeatP (rep.toNat + 1)
    pure false
  else if op.toNat = 0x1C then do
    cudaPutP (List.replicate 8 0#8)
    pure false
  else if op.toNat = 0x1E then pure true
  else do
    let row ← CM.opt cudaTemplates[op.toNat]?
    let l ← cudaFieldsP row (0#64, 0)
    cudaPutP (wordBytes64 .little (swap64 l.1))
    pure false

/-- `cuda842_decompress` for one thread, 842_decompress.cu 134-298; the result `false` means that the fuel of the model
has run out. -/
def cudaThreadP (inp : List Byte) : MemProg Bool :=
  (CM.doWhile cudaIterP (8 * inp.length + 1)
    { inp := inp, word := 0, buf := [], out := 0, bits := 0, buffer := 0#64 }).bind fun
    | .ok _ _ => .ret true
    | .err _ _ => .ub
    | .ub => .ub
    | .timeout => .ret false

/-- A launch of `n` threads, 842_decompress.cu 137-141: all threads at their start.  The products with `chunk_num` wrap
at 2^32 words. -/
def cudaSys (inp : List Byte) (n : Nat) (buf : List Byte) : MemSys Bool :=
  ⟨buf, fun i =>
    let src := 8 * (cudaChunkSize / 8 * 2 * i % 2 ^ 32)
    let dst := 8 * (cudaChunkSize / 8 * i % 2 ^ 32)
    if n ≤ i then .ret true
    else if inp.length < src then .ub
    else (cudaThreadP (inp.drop src)).shift dst⟩

end Lib842
