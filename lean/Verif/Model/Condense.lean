import Verif.Model.Sample
/-!
# The sample program `compdecomp` with `CHUNKS_PER_BATCH` = 1 and with `CONDENSE`

The parts of `sample/compdecomp.c` that the default configuration (`Verif.Model.Sample`) leaves out: single chunks
(113-120, 205-218) and the condensation between the two loops (66-73, 148-173, 183-185).  Simplifications as there; the
contents of `out_condensed` before it is written are arbitrary.
-/

namespace Lib842

/-- `compressed_chunk_positions`, compdecomp.c 151-154: sums of `size_t` -/
def condPositions : Nat → List Nat → List Nat
  | _, [] => []
  | pos, n :: ns => pos :: condPositions ((pos + n) % 2 ^ 64) ns

/-- One iteration of the loop that condenses, compdecomp.c 163-169; the state is `out_condensed`. -/
def condenseChunk (out : List Byte) (poss sizes : List Nat) (c : Nat) (cond : List Byte) : BRes (List Byte) := do
  let _ ← ptrAdd (some out) (sampleChunk * c)
  let pos ← BRes.access poss[c]?
  let _ ← ptrAdd (some cond) pos
  let n ← BRes.access sizes[c]?
  let bytes ← BRes.access (readBytes out (sampleChunk * c) n)
  BRes.access (writeBytes cond pos bytes)

/-- Body of the decompression loop with `CONDENSE` and batches of 16 chunks, compdecomp.c 181-227: as `decompBatch`, but
the input is `out_condensed` (at the address `acond`) from the position of the first chunk on. -/
def decompBatchCond (impl : Impl) (acond adec : Nat) (inp cond : List Byte) (poss csizes : List Nat) (num : Nat)
    (rets0 : Nat → List (Option Errno)) (k : Nat) (m : OmpMem) : BRes OmpMem := do
  let n := batchChunks num k
  let pos ← BRes.access poss[k]?
  let cout ← ptrAdd (some cond) pos
  let cdec ← ptrAdd (some m.buf) (sampleChunk * k)
  let sizes ← BRes.access (fillSizes m.sizes k n sampleChunk)
  match impl.decompressChunked (acond + pos) (adec + sampleChunk * k) n sampleChunk sampleChunk (cout.getD [])
      (csizes.drop k) ⟨rets0 k, cdec.getD [], sizes.drop k⟩ with
  | .ub => .ub
  | .timeout => .timeout
  | .err _ s | .ok (some _) s =>
    forEach (copyRaw inp csizes k) (List.range n)
      ⟨m.buf.take (sampleChunk * k) ++ s.out, sizes.take k ++ s.olens, false⟩
  | .ok none s =>
    forEach (copyRaw inp csizes k) (List.range n)
      ⟨m.buf.take (sampleChunk * k) ++ s.out, sizes.take k ++ s.olens, m.success⟩

/-- Body of the compression loop with `CHUNKS_PER_BATCH` = 1, compdecomp.c 97-103, 113-131 -/
def compOne (impl : Impl) (ain aout : Nat) (inp : List Byte) (k : Nat) (m : OmpMem) : BRes OmpMem := do
  let _ ← ptrAdd (some inp) (sampleChunk * k)
  let _ ← ptrAdd (some m.buf) (sampleChunk * k)
  let sizes ← BRes.access (fillSizes m.sizes k 1 sampleChunk)
  let src ← BRes.access (readBytes inp (sampleChunk * k) sampleChunk)
  let olen ← BRes.access sizes[k]?
  let dst ← BRes.access (readBytes m.buf (sampleChunk * k) olen)
  match impl.compress (ain + sampleChunk * k) (aout + sampleChunk * k) src dst with
  | .ub => .ub
  | .timeout => .timeout
  | .ret rc n buf => do
    let out ← BRes.access (writeBytes m.buf (sampleChunk * k) buf)
    let sizes := sizes.set k n
    if rc = some .ENOSPC then .ok ⟨out, sizes.set k SIZE_MAX, m.success⟩
    else .ok ⟨out, sizes, if rc = none then m.success else false⟩

/-- Body of the decompression loop with `CHUNKS_PER_BATCH` = 1, compdecomp.c 181-227; `comp` is `out` or
`out_condensed`, at the address `acomp`; `poss` are the offsets of the chunks there.  The value that the decompressor returns is
ignored, `err` stays 0. -/
def decompOne (impl : Impl) (acomp adec : Nat) (inp comp : List Byte) (poss csizes : List Nat) (k : Nat) (m : OmpMem) :
    BRes OmpMem := do
  let pos ← BRes.access poss[k]?
  let _ ← ptrAdd (some comp) pos
  let _ ← ptrAdd (some m.buf) (sampleChunk * k)
  let sizes ← BRes.access (fillSizes m.sizes k 1 sampleChunk)
  let n ← BRes.access csizes[k]?
  if n ≠ SIZE_MAX then do
    let src ← BRes.access (readBytes comp pos n)
    let olen ← BRes.access sizes[k]?
    let dst ← BRes.access (readBytes m.buf (sampleChunk * k) olen)
    match impl.decompress (acomp + pos) (adec + sampleChunk * k) src dst with
    | .ub => .ub
    | .timeout => .timeout
    | .ret _ n buf => do
      let dec ← BRes.access (writeBytes m.buf (sampleChunk * k) buf)
      .ok ⟨dec, sizes.set k n, m.success⟩
  else do
    let bytes ← BRes.access (readBytes inp (sampleChunk * k) sampleChunk)
    let dec ← BRes.access (writeBytes m.buf (sampleChunk * k) bytes)
    .ok ⟨dec, sizes.set k sampleChunk, m.success⟩

/-- Where the loops of a variant find their batches: the addresses of the buffers, what uninitialised memory contains
(`cond0 n`: `out_condensed` of `n` bytes) and the orders of the iterations of the three loops -/
structure CondEnv where
  ain : Nat
  aout : Nat
  acond : Nat
  adec : Nat
  junk : SampleJunk
  cond0 : Nat → List Byte
  ord1 : List Nat
  ordC : List Nat
  ord2 : List Nat

/-- What follows the decompression loop, compdecomp.c 229-247 -/
def benchFinish (inp : List Byte) (olen : Nat) (d : OmpMem) : BRes BenchRes :=
  if d.success = false then .ok ⟨false, some olen, d.buf⟩
  else if inp.length ≠ d.sizes.sum ∨ inp ≠ d.buf then .ok ⟨false, some olen, d.buf⟩
  else .ok ⟨true, some olen, d.buf⟩

/-- `*olen`, compdecomp.c 138-142 -/
def condOlen (sizes : List Nat) : Nat := (sizes.map fun n => if n ≠ SIZE_MAX then n else sampleChunk).sum

/-- `compress_benchmark_core` with `CONDENSE` and batches of 16 chunks, compdecomp.c 36-268 -/
def benchCondBatch (impl : Impl) (v : CondEnv) (inp : List Byte) : BRes BenchRes :=
  if chunksPerBatch > 1 ∧ sampleChunk % impl.requiredAlignment ≠ 0 then .ok ⟨false, none, []⟩
  else do
    let num := inp.length / sampleChunk
    let dec0 := List.replicate inp.length 0
    let m ← forEach (compBatch impl v.ain v.aout inp num v.junk.rets1) v.ord1
      ⟨List.replicate (inp.length / sampleChunk * sampleChunk) 0, v.junk.sizes1, true⟩
    if m.success = false then .ok ⟨false, none, dec0⟩
    else do
      let olen := condOlen m.sizes
      let poss := condPositions 0 m.sizes
      let cond ← forEach (condenseChunk m.buf poss m.sizes) v.ordC (v.cond0 olen)
      let d ← forEach (decompBatchCond impl v.acond v.adec inp cond poss m.sizes num v.junk.rets2) v.ord2
        ⟨dec0, v.junk.sizes2, true⟩
      benchFinish inp olen d

/-- `compress_benchmark_core` with `CHUNKS_PER_BATCH` = 1, with or without `CONDENSE`, compdecomp.c 36-268 -/
def benchOne (condense : Bool) (impl : Impl) (v : CondEnv) (inp : List Byte) : BRes BenchRes := do
  let num := inp.length / sampleChunk
  let dec0 := List.replicate inp.length 0
  let m ← forEach (compOne impl v.ain v.aout inp) v.ord1
    ⟨List.replicate (inp.length / sampleChunk * sampleChunk) 0, v.junk.sizes1, true⟩
  if m.success = false then .ok ⟨false, none, dec0⟩
  else do
    let olen := condOlen m.sizes
    if condense then do
      let poss := condPositions 0 m.sizes
      let cond ← forEach (condenseChunk m.buf poss m.sizes) v.ordC (v.cond0 olen)
      let d ← forEach (decompOne impl v.acond v.adec inp cond poss m.sizes) v.ord2 ⟨dec0, v.junk.sizes2, true⟩
      benchFinish inp olen d
    else do
      let poss := (List.range num).map (sampleChunk * ·)
      let d ← forEach (decompOne impl v.aout v.adec inp m.buf poss m.sizes) v.ord2 ⟨dec0, v.junk.sizes2, true⟩
      benchFinish inp olen d

end Lib842
