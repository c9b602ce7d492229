import Verif.Model.Pgasus
import Verif.Model.OmpInterleave
/-!
# The sample programs for NUMA machines, with worker threads that run at the same time

`/repo/sample/compdecomp_pgasus.cpp` and `/repo/sample/compdecomp_pgasus_omp.cpp`.  In `Verif.Model.Pgasus` the worker threads run one
after the other.  Here every store to the arrays of sizes, every `fetch_add` and every call of the library is a step of its own, and the
steps of all worker threads are interleaved in any way.  A call of the library is entered, may store anything in the memory
it may write to any number of times, and at the end that memory has the contents that the function computes from the contents at the start.

Simplifications: as in `Verif.Model.Pgasus`.  The message after an error (with the spin lock held) is one step.  `input_buffers` is only read, and
in the second phase `compressed_buffers` and `compressed_chunk_sizes` are only read as well; what a call reads there it reads on entry.
-/

namespace Lib842

/-- The two phases, compdecomp_pgasus.cpp 159-181 and 185-208 -/
inductive PgDir where
  | comp
  | dec
  deriving DecidableEq, Repr

/-- Bytes of output per chunk, and what is stored as capacity: compdecomp_pgasus.cpp 169, 171 and 195, 198 -/
def PgDir.width : PgDir → Nat
  | .comp => sampleChunk * 2
  | .dec => sampleChunk

/-- The buffer that the phase writes (/repo/sample/compdecomp_pgasus.cpp 169, 195) -/
def PgDir.out : PgDir → NodeMem → List Byte
  | .comp, m => m.comp
  | .dec, m => m.dec

/-- The array of sizes that the phase writes (/repo/sample/compdecomp_pgasus.cpp 170, 197) -/
def PgDir.sizes : PgDir → NodeMem → List Nat
  | .comp, m => m.csizes
  | .dec, m => m.dsizes

/-- New contents of both (/repo/sample/compdecomp_pgasus.cpp 169-172, 195-200) -/
def PgDir.put : PgDir → NodeMem → List Byte → List Nat → NodeMem
  | .comp, m, b, z => { m with comp := b, csizes := z }
  | .dec, m, b, z => { m with dec := b, dsizes := z }

/-- Return value, `*olen` and contents of the output buffer after a call; `none` if the call is undefined or does not return (/repo/sample/compdecomp_pgasus.cpp 172, 200) -/
def pgResult (cap : Nat) : Call → Option (Option Errno × Nat × List Byte)
  | .ub | .timeout => none
  | .ret rc n buf => if buf.length = cap then some (rc, n, buf) else none

/-- The call of the library for chunk `i` of node `k`: compdecomp_pgasus.cpp 168-172 (compdecomp_pgasus_omp.cpp 163-167) and 194-200 (192-198) -/
def pgCall (f g : ChunkFn) (a : PgAddrs) (k i : Nat) (m : NodeMem) : PgDir → Option (Option Errno × Nat × List Byte)
  | .comp => do
    let src ← readBytes m.inp (i * sampleChunk) sampleChunk
    let cap ← m.csizes[i]?
    let dst ← readBytes m.comp (i * (sampleChunk * 2)) cap
    pgResult cap (f (a.ain k + i * sampleChunk) (a.acomp k + i * (sampleChunk * 2)) src dst)
  | .dec => do
    let n ← m.csizes[i]?
    let src ← readBytes m.comp (i * (sampleChunk * 2)) n
    let cap ← m.dsizes[i]?
    let dst ← readBytes m.dec (i * sampleChunk) cap
    pgResult cap (g (a.acomp k + i * (sampleChunk * 2)) (a.adec k + i * sampleChunk) src dst)

/-- Where a worker thread is, compdecomp_pgasus.cpp 159-181, 185-208 -/
inductive PgPc where
  /-- before `fetch_add`, 161, 187 -/
  | start
  /-- before the test of the loop, 167, 193 -/
  | head
  /-- the capacity is stored (171, 198), before the call -/
  | call
  /-- in the call; its results -/
  | inside (rc : Option Errno) (n : Nat) (buf : List Byte)
  /-- before the message, 174-176, 201-203 -/
  | report
  | done
  deriving DecidableEq, Repr

/-- A worker thread: `localThreadId` (once it has one), `chunkNum` and where it is (/repo/sample/compdecomp_pgasus.cpp 161-167) -/
structure PgTh where
  tid : Option Nat
  i : Nat
  pc : PgPc
  deriving DecidableEq, Repr

/-- The memory of the nodes, the counters `compressThreadIds` or `decompressThreadIds`, the worker threads `w` = 0, 1, … of each node `k`, and the
number of messages so far (/repo/sample/compdecomp_pgasus.cpp 84-96) -/
structure PgSys where
  mem : Nat → NodeMem
  ids : Nat → Nat
  th : Nat → Nat → PgTh
  msgs : Nat

/-- New state of one worker thread (part of the model only, no counterpart in /repo) -/
def PgSys.setTh (s : PgSys) (k w : Nat) (t : PgTh) : PgSys :=
  { s with th := fun k' w' => if k' = k ∧ w' = w then t else s.th k' w' }

/-- New contents of the memory of one node (part of the model only, no counterpart in /repo) -/
def PgSys.setMem (s : PgSys) (k : Nat) (m : NodeMem) : PgSys :=
  { s with mem := fun k' => if k' = k then m else s.mem k' }

/-- `chunkEndLocal`, compdecomp_pgasus.cpp 165, 191 -/
def pgEnd (cpc t : Nat) : Nat := (t * cpc + cpc + 2 ^ 64 - 1) % 2 ^ 64

/-- One step of worker thread `w` of node `k`; the last argument tells whether it is a store in the middle of a call.  `stop`: the thread ends after an error
(compdecomp_pgasus.cpp 177, 204); in compdecomp_pgasus_omp.cpp (168-171, 199-202) it goes on.  `chunkNum++` cannot wrap: chunk 2^64 - 1 is outside of the arrays. -/
inductive PgStep (d : PgDir) (f g : ChunkFn) (a : PgAddrs) (stop : Bool) (cpc : Nat) : PgSys → PgSys → Bool → Prop
  /-- 161-164, 187-190 -/
  | claim {s : PgSys} {k w i : Nat} : s.th k w = ⟨none, i, .start⟩ →
      PgStep d f g a stop cpc s
        ({ s with ids := fun k' => if k' = k then s.ids k + 1 else s.ids k' }.setTh k w ⟨some (s.ids k), s.ids k * cpc, .head⟩) false
  /-- the loop is over -/
  | quit {s : PgSys} {k w t i : Nat} : s.th k w = ⟨some t, i, .head⟩ → pgEnd cpc t < i →
      PgStep d f g a stop cpc s (s.setTh k w ⟨some t, i, .done⟩) false
  /-- 171, 198 -/
  | store {s : PgSys} {k w t i : Nat} : s.th k w = ⟨some t, i, .head⟩ → i ≤ pgEnd cpc t → i < (d.sizes (s.mem k)).length →
      PgStep d f g a stop cpc s
        ((s.setMem k (d.put (s.mem k) (d.out (s.mem k)) ((d.sizes (s.mem k)).set i d.width))).setTh k w ⟨some t, i, .call⟩) false
  /-- 172, 200 -/
  | enter {s : PgSys} {k w t i n : Nat} {rc : Option Errno} {buf : List Byte} : s.th k w = ⟨some t, i, .call⟩ →
      pgCall f g a k i (s.mem k) d = some (rc, n, buf) →
      PgStep d f g a stop cpc s (s.setTh k w ⟨some t, i, .inside rc n buf⟩) false
  | scratch {s : PgSys} {k w t i n v : Nat} {rc : Option Errno} {buf bs : List Byte} : s.th k w = ⟨some t, i, .inside rc n buf⟩ →
      bs.length = buf.length →
      PgStep d f g a stop cpc s
        (s.setMem k (d.put (s.mem k) (splice (d.out (s.mem k)) (i * d.width) bs) ((d.sizes (s.mem k)).set i v))) true
  | leave {s : PgSys} {k w t i n : Nat} {rc : Option Errno} {buf : List Byte} : s.th k w = ⟨some t, i, .inside rc n buf⟩ →
      PgStep d f g a stop cpc s
        ((s.setMem k (d.put (s.mem k) (splice (d.out (s.mem k)) (i * d.width) buf) ((d.sizes (s.mem k)).set i n))).setTh k w
          (if rc = none then ⟨some t, i + 1, .head⟩ else ⟨some t, i, .report⟩)) false
  /-- 174-178, 201-205 -/
  | report {s : PgSys} {k w t i : Nat} : s.th k w = ⟨some t, i, .report⟩ →
      PgStep d f g a stop cpc s
        ({ s with msgs := s.msgs + 1 }.setTh k w (if stop then ⟨some t, i, .done⟩ else ⟨some t, i + 1, .head⟩)) false

/-- Executions: `n` is the number of steps that are not stores in the middle of a call (/repo/sample/compdecomp_pgasus.cpp 159-181, 185-208) -/
inductive PgExec (d : PgDir) (f g : ChunkFn) (a : PgAddrs) (stop : Bool) (cpc : Nat) (s₀ : PgSys) : Nat → PgSys → Prop
  | init : PgExec d f g a stop cpc s₀ 0 s₀
  | step {n : Nat} {s s' : PgSys} {b : Bool} : PgExec d f g a stop cpc s₀ n s → PgStep d f g a stop cpc s s' b →
      PgExec d f g a stop cpc s₀ (if b then n else n + 1) s'

/-- The start of a phase.  `ts` has the number of threads of every node.  compdecomp_pgasus.cpp (`stop`) 149-150, 159-161, 185-187: the counters are 0
and no thread has a number.  compdecomp_pgasus_omp.cpp 150-157, 179-186: the threads of a node are numbered. -/
def pgStart (stop : Bool) (cpc : Nat) (ts : List Nat) (mem : Nat → NodeMem) : PgSys where
  mem := mem
  ids := fun k => if stop then 0 else ts.getD k 0
  th := fun k w =>
    if w < ts.getD k 0 then (if stop then ⟨none, 0, .start⟩ else ⟨some w, w * cpc, .head⟩) else ⟨none, 0, .done⟩
  msgs := 0

/-- All threads have ended, compdecomp_pgasus.cpp 159, 185 (`numa::wait`) -/
def PgSys.Done (s : PgSys) : Prop := ∀ k w, (s.th k w).pc = .done

/-- Some thread is about to do something undefined: it accesses an array outside of its bounds, or calls the library in a way that is undefined (/repo/sample/compdecomp_pgasus.cpp 171-172, 198-200) -/
def PgFault (d : PgDir) (f g : ChunkFn) (a : PgAddrs) (cpc : Nat) (s : PgSys) : Prop :=
  ∃ k w t i, (s.th k w = ⟨some t, i, .head⟩ ∧ i ≤ pgEnd cpc t ∧ (d.sizes (s.mem k)).length ≤ i) ∨
    (s.th k w = ⟨some t, i, .call⟩ ∧ pgCall f g a k i (s.mem k) d = none)

/-- `main`, compdecomp_pgasus.cpp 43-226 (`stop`) and compdecomp_pgasus_omp.cpp 43-222 (not `stop`), for a file that can be opened: the results
of the executions that come to an end.  `p` = `get_nprocs()`. -/
inductive PgRun (stop : Bool) (f g : ChunkFn) (a : PgAddrs) (j : PgJunk) (avail p : Nat) (ts : List Nat) (file : List Byte) : PgOut → Prop
  /-- 115-146 -/
  | nomem {len cpn : Nat} : 0 < ts.length → 0 < p / ts.length → len = pgPadded p (pgFileLength file.length) / ts.length →
      cpn = len / sampleChunk → (avail < len ∨ avail < len * 2 % 2 ^ 64 ∨ avail < cpn * 8) →
      PgRun stop f g a j avail p ts file ⟨1, []⟩
  | both {len cpn cpc n1 n2 : Nat} {s1 s2 : PgSys} : 0 < ts.length → 0 < p / ts.length →
      len = pgPadded p (pgFileLength file.length) / ts.length → cpn = len / sampleChunk → cpc = cpn / (p / ts.length) →
      ¬ (avail < len ∨ avail < len * 2 % 2 ^ 64 ∨ avail < cpn * 8) →
      PgExec .comp f g a stop cpc (pgStart stop cpc ts (pgNode file j len cpn)) n1 s1 → s1.Done →
      PgExec .dec f g a stop cpc (pgStart stop cpc ts s1.mem) n2 s2 → s2.Done →
      PgRun stop f g a j avail p ts file
        ⟨if (List.range ts.length).all fun k => decide ((s2.mem k).inp = (s2.mem k).dec) then 0 else -47,
          (List.range ts.length).map fun k => (s2.mem k).dec⟩

end Lib842
