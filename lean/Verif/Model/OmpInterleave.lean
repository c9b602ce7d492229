import Verif.Model.Condense
/-!
# The OpenMP loops of the sample program, with iterations that run at the same time

`/repo/sample/compdecomp.c` 95-132, 162-169 and 179-228.  In `Verif.Model.Sample` an OpenMP loop runs its iterations one
after the other.  Here every iteration is a program that accesses the shared arrays step by step, and the steps of
different iterations are interleaved in any way.  (Every iteration is a thread of its own; a team of fewer threads, each with
several iterations, has fewer executions.)

A call of the library (or of `memcpy`) takes time: it is entered, it may store anything in the memory it may write to any number of times,
and at the end that memory has the contents that the function computes from the contents at the start.
Simplifications: as in `Verif.Model.Sample`; the loops' private variables (`batch_chunks`, `chunk_in`, `chunk_out`, `chunk_rets`, `err`,
`is_first_failure`) and the arrays that a loop only reads are not part of the shared memory.
-/

namespace Lib842

/-- What a library function returns: the return value and the contents of `rets` (/repo/include/lib842/common.h 38-41, 50-53) -/
structure LibRet where
  err : Option Errno
  rets : List (Option Errno)
  deriving DecidableEq, Repr

/-- What an iteration has still to do.  `buf` is the array of bytes and `sizes` the array of sizes that the loop writes (/repo/sample/compdecomp.c 97-131, 181-227) -/
inductive OmpProg where
  /-- the end of the iteration -/
  | done
  /-- something undefined, or a call that does not return -/
  | ub
  /-- `sizes[i] = v` -/
  | size (i v : Nat) (next : OmpProg)
  /-- a call that may write `buf[lo]` to `buf[lo + len - 1]` and `sizes[i]` to `sizes[i + n - 1]`; `f` gives their contents at the
  end of the call and what the function returns -/
  | call (lo len i n : Nat) (f : List Byte → List Nat → Option (List Byte × List Nat × LibRet)) (next : LibRet → OmpProg)
  /-- inside such a call; `out` and `cells` are the contents at its end -/
  | inside (lo i : Nat) (out : List Byte) (cells : List Nat) (next : OmpProg)
  /-- before `omp atomic capture`, 125-126, 221-222 -/
  | fail (e : Errno)
  /-- before `fprintf`, 128, 224 -/
  | report (e : Errno)

/-- Shared memory, the messages written so far and the iterations (/repo/sample/compdecomp.c 45, 52, 59, 74, 79) -/
structure OmpSys where
  buf : List Byte
  sizes : List Nat
  success : Bool
  msgs : List Errno
  th : Nat → OmpProg

/-- Replace what is left to do in one iteration (part of the model only, no counterpart in /repo). -/
def OmpSys.setTh (s : OmpSys) (t : Nat) (p : OmpProg) : OmpSys :=
  { s with th := fun u => if u = t then p else s.th u }

/-- Elements `lo` to `lo + len - 1` of an array -/
def slot {α : Type} (l : List α) (lo len : Nat) : List α := (l.drop lo).take len

/-- `xs` is stored from index `i` on (part of the model only, no counterpart in /repo) -/
def splice {α : Type} (l : List α) (i : Nat) (xs : List α) : List α := l.take i ++ xs ++ l.drop (i + xs.length)

/-- One step of one iteration (/repo/sample/compdecomp.c 97-131, 181-227) -/
inductive OmpStep : OmpSys → OmpSys → Prop
  | size {s : OmpSys} {t i v : Nat} {p : OmpProg} : s.th t = .size i v p → i < s.sizes.length →
      OmpStep s ({ s with sizes := s.sizes.set i v }.setTh t p)
  | enter {s : OmpSys} {t lo len i n : Nat} {f : List Byte → List Nat → Option (List Byte × List Nat × LibRet)}
      {next : LibRet → OmpProg} {out : List Byte} {cells : List Nat} {r : LibRet} :
      s.th t = .call lo len i n f next → lo + len ≤ s.buf.length → i + n ≤ s.sizes.length →
      f (slot s.buf lo len) (slot s.sizes i n) = some (out, cells, r) → out.length = len → cells.length = n →
      OmpStep s (s.setTh t (.inside lo i out cells (next r)))
  | scratch {s : OmpSys} {t lo i : Nat} {out bs : List Byte} {cells cs : List Nat} {p : OmpProg} :
      s.th t = .inside lo i out cells p → bs.length = out.length → cs.length = cells.length →
      OmpStep s { s with buf := splice s.buf lo bs, sizes := splice s.sizes i cs }
  | leave {s : OmpSys} {t lo i : Nat} {out : List Byte} {cells : List Nat} {p : OmpProg} :
      s.th t = .inside lo i out cells p →
      OmpStep s ({ s with buf := splice s.buf lo out, sizes := splice s.sizes i cells }.setTh t p)
  /-- `is_first_failure = omp_success; omp_success &= false;` in one step, then the `if` -/
  | capture {s : OmpSys} {t : Nat} {e : Errno} : s.th t = .fail e →
      OmpStep s ({ s with success := false }.setTh t (if s.success then .report e else .done))
  | report {s : OmpSys} {t : Nat} {e : Errno} : s.th t = .report e →
      OmpStep s ({ s with msgs := s.msgs ++ [e] }.setTh t .done)

/-- The states that occur, whatever the order of the steps (/repo/sample/compdecomp.c 95-132, 179-228) -/
inductive OmpReach (s₀ : OmpSys) : OmpSys → Prop
  | init : OmpReach s₀ s₀
  | step {s s' : OmpSys} : OmpReach s₀ s → OmpStep s s' → OmpReach s₀ s'

/-! ## The iterations -/

/-- compdecomp.c 123-131, 219-227 -/
def ompEnd : Option Errno → OmpProg
  | none => .done
  | some e => .fail e

/-- compdecomp.c 102-103, 190-191: the counter takes the values `cs`. -/
def ompFill (k : Nat) (cs : List Nat) (next : OmpProg) : OmpProg :=
  cs.foldr (fun i p => .size (k + i) sampleChunk p) next

/-- compdecomp.c 110-114, `err` = 0 -/
def ompMark (k : Nat) (rets : List (Option Errno)) (cs : List Nat) (next : OmpProg) : OmpProg :=
  cs.foldr (fun c p =>
    match rets[c]? with
    | none => .ub
    | some r => if r = some .ENOSPC then .size (k + c) SIZE_MAX p else p) next

/-- The result of a chunked call (/repo/sample/compdecomp.c 106-109, 194-197) -/
def chunkedResult : Outcome ChState (Option Errno) → Option (List Byte × List Nat × LibRet)
  | .ub | .timeout => none
  | .err e s => some (s.out, s.olens, ⟨some e, s.rets⟩)
  | .ok e s => some (s.out, s.olens, ⟨e, s.rets⟩)

/-- `compress_chunked` as called for the batch from chunk `k` on, compdecomp.c 99-109: `b`, `z` are the contents of `chunk_out` and of
`&compressed_chunk_sizes[chunk_num]`. -/
def ompCompCall (cc : ChunkedFn) (ain aout : Nat) (inp : List Byte) (num : Nat) (rets0 : Nat → List (Option Errno)) (k : Nat)
    (b : List Byte) (z : List Nat) : Option (List Byte × List Nat × LibRet) :=
  if sampleChunk * k ≤ inp.length then
    chunkedResult (cc (ain + sampleChunk * k) (aout + sampleChunk * k) (batchChunks num k) sampleChunk sampleChunk
      (inp.drop (sampleChunk * k)) (List.replicate chunksPerBatch sampleChunk) ⟨rets0 k, b, z⟩)
  else none

/-- Iteration `chunk_num` = `k` of the compression loop, compdecomp.c 97-131 -/
def ompCompBatch (cc : ChunkedFn) (ain aout : Nat) (inp : List Byte) (num : Nat) (rets0 : Nat → List (Option Errno)) (k : Nat) :
    OmpProg :=
  let n := batchChunks num k
  ompFill k (List.range n)
    (.call (sampleChunk * k) (sampleChunk * n) k n (ompCompCall cc ain aout inp num rets0 k) fun r =>
      if r.err = none then ompMark k r.rets (List.range n) .done else ompEnd r.err)

/-- compdecomp.c 198-204 -/
def ompCopy (inp : List Byte) (csizes : List Nat) (k : Nat) (cs : List Nat) (next : OmpProg) : OmpProg :=
  cs.foldr (fun c p =>
    match csizes[k + c]? with
    | none => .ub
    | some n =>
      if n = SIZE_MAX then
        .call (sampleChunk * (k + c)) sampleChunk (k + c) 0
          (fun _ _ => (readBytes inp (sampleChunk * (k + c)) sampleChunk).map fun bs => (bs, [], ⟨none, []⟩))
          fun _ => .size (c + k) sampleChunk p
      else p) next

/-- `decompress_chunked` as called for the batch from chunk `k` on, compdecomp.c 186-197 -/
def ompDecompCall (cd : ChunkedFn) (aout adec : Nat) (out : List Byte) (csizes : List Nat) (num : Nat)
    (rets0 : Nat → List (Option Errno)) (k : Nat) (b : List Byte) (z : List Nat) : Option (List Byte × List Nat × LibRet) :=
  if sampleChunk * k ≤ out.length then
    chunkedResult (cd (aout + sampleChunk * k) (adec + sampleChunk * k) (batchChunks num k) sampleChunk sampleChunk
      (out.drop (sampleChunk * k)) (csizes.drop k) ⟨rets0 k, b, z⟩)
  else none

/-- Iteration `chunk_num` = `k` of the decompression loop, compdecomp.c 181-227 -/
def ompDecompBatch (cd : ChunkedFn) (aout adec : Nat) (inp out : List Byte) (csizes : List Nat) (num : Nat)
    (rets0 : Nat → List (Option Errno)) (k : Nat) : OmpProg :=
  let n := batchChunks num k
  ompFill k (List.range n)
    (.call (sampleChunk * k) (sampleChunk * n) k n (ompDecompCall cd aout adec out csizes num rets0 k) fun r =>
      ompCopy inp csizes k (List.range n) (ompEnd r.err))

/-- The result of a call for a single chunk; the capacity is what `*olen` contains (/repo/sample/compdecomp.c 116-117, 208-210) -/
def singleResult (f : List Byte → Call) (b : List Byte) (z : List Nat) : Option (List Byte × List Nat × LibRet) :=
  if z = [b.length] then
    match f b with
    | .ub | .timeout => none
    | .ret rc n buf => some (buf, [n], ⟨rc, []⟩)
  else none

/-- Iteration of the compression loop with `CHUNKS_PER_BATCH` = 1, compdecomp.c 97-103, 115-131 -/
def ompCompOne (f : ChunkFn) (ain aout : Nat) (inp : List Byte) (k : Nat) : OmpProg :=
  ompFill k [0]
    (.call (sampleChunk * k) sampleChunk k 1
      (fun b z => (readBytes inp (sampleChunk * k) sampleChunk).bind fun src =>
        singleResult (f (ain + sampleChunk * k) (aout + sampleChunk * k) src) b z)
      fun r => if r.err = some .ENOSPC then .size k SIZE_MAX .done else ompEnd r.err)

/-- Iteration of the decompression loop with `CHUNKS_PER_BATCH` = 1, compdecomp.c 181-191, 205-227; `comp` is `out` or `out_condensed`, at the
address `acomp`, `poss` are the offsets of the chunks there.  The value that the decompressor returns is ignored. -/
def ompDecompOne (g : ChunkFn) (acomp adec : Nat) (inp comp : List Byte) (poss csizes : List Nat) (k : Nat) : OmpProg :=
  match poss[k]?, csizes[k]? with
  | some pos, some n =>
    ompFill k [0]
      (if n ≠ SIZE_MAX then
        .call (sampleChunk * k) sampleChunk k 1
          (fun b z => (readBytes comp pos n).bind fun src => singleResult (g (acomp + pos) (adec + sampleChunk * k) src) b z)
          fun _ => .done
      else
        .call (sampleChunk * k) sampleChunk k 0
          (fun _ _ => (readBytes inp (sampleChunk * k) sampleChunk).map fun bs => (bs, [], ⟨none, []⟩))
          fun _ => .size k sampleChunk .done)
  | _, _ => .ub

/-- Iteration of the loop that condenses, compdecomp.c 163-169; `buf` is `out_condensed`. -/
def ompCondense (out : List Byte) (poss csizes : List Nat) (c : Nat) : OmpProg :=
  match poss[c]?, csizes[c]? with
  | some pos, some n =>
    .call pos n 0 0 (fun _ _ => (readBytes out (sampleChunk * c) n).map fun bs => (bs, [], ⟨none, []⟩)) fun _ => .done
  | _, _ => .ub

/-- A parallel loop at its start: thread `t` has the iteration with the counter `step * t` (`omp parallel for`, /repo/sample/compdecomp.c 95-96, 179-180) -/
def ompLoop (step num : Nat) (body : Nat → OmpProg) (buf : List Byte) (sizes : List Nat) : OmpSys :=
  ⟨buf, sizes, true, [], fun t => if step * t < num then body (step * t) else .done⟩

/-- `compress_benchmark_core`, compdecomp.c 36-268 (default configuration), with the two loops interleaved: the possible results, and the errors for which
a line is written (128, 224). -/
inductive OmpBench (impl : Impl) (ain aout adec : Nat) (inp : List Byte) (j : SampleJunk) : BenchRes → List Errno → Prop
  /-- 47-50 -/
  | align : sampleChunk % impl.requiredAlignment ≠ 0 → OmpBench impl ain aout adec inp j ⟨false, none, []⟩ []
  /-- 134-135 -/
  | comp {s : OmpSys} : sampleChunk % impl.requiredAlignment = 0 →
      OmpReach (ompLoop chunksPerBatch (inp.length / sampleChunk)
        (ompCompBatch impl.compressChunked ain aout inp (inp.length / sampleChunk) j.rets1)
        (List.replicate (inp.length / sampleChunk * sampleChunk) 0) j.sizes1) s →
      (∀ t, s.th t = .done) → s.success = false →
      OmpBench impl ain aout adec inp j ⟨false, none, List.replicate inp.length 0⟩ s.msgs
  /-- 137-268 -/
  | decomp {s d : OmpSys} {r : BenchRes} : sampleChunk % impl.requiredAlignment = 0 →
      OmpReach (ompLoop chunksPerBatch (inp.length / sampleChunk)
        (ompCompBatch impl.compressChunked ain aout inp (inp.length / sampleChunk) j.rets1)
        (List.replicate (inp.length / sampleChunk * sampleChunk) 0) j.sizes1) s →
      (∀ t, s.th t = .done) → s.success = true →
      OmpReach (ompLoop chunksPerBatch (inp.length / sampleChunk)
        (ompDecompBatch impl.decompressChunked aout adec inp s.buf s.sizes (inp.length / sampleChunk) j.rets2)
        (List.replicate inp.length 0) j.sizes2) d →
      (∀ t, d.th t = .done) → benchFinish inp (condOlen s.sizes) ⟨d.buf, d.sizes, d.success⟩ = .ok r →
      OmpBench impl ain aout adec inp j r (s.msgs ++ d.msgs)

end Lib842
