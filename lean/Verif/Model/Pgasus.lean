import Verif.Model.Sample
/-!
# The sample programs for machines with several NUMA nodes

`sample/compdecomp_pgasus.cpp` (tasks of the PGASUS library) and `sample/compdecomp_pgasus_omp.cpp`
(nested OpenMP regions).  Both read a file, give every NUMA node an equal part of it, split the part of a
node among the worker threads of the node, compress and decompress every chunk of 64 KiB, and compare.

PGASUS itself is not in the repository.  It is taken to do what its names say: there is a list of nodes
with CPUs, every node has a number of worker threads (`ts`), `forEachThread` runs its argument once in
each of them, and `numa::wait` waits for all.  The counters `compressThreadIds[node]` (`fetch_add`)
and `omp_get_thread_num()` hand out the numbers 0, 1, … to the threads of a node.  The threads run one
after the other in an arbitrary order; threads of well-behaved runs write disjoint memory.

Simplifications: allocations of up to `avail` bytes succeed (also those of 0 bytes), larger ones fail;
the workspaces (`MemSource`) of size `next_pow2(…)` are always large enough; times and output to the
terminal are left out, and so is the assertion of compdecomp_pgasus_omp.cpp 147 about the environment.  The arrays of sizes are not initialised (`PgJunk`).
-/

namespace Lib842

/-- `next_pow2`, compdecomp_pgasus.cpp 23-34, compdecomp_pgasus_omp.cpp 22-33 -/
def nextPow2 (x : BitVec 64) : BitVec 64 :=
  let x := x - 1
  let x := x ||| x >>> 1
  let x := x ||| x >>> 2
  let x := x ||| x >>> 4
  let x := x ||| x >>> 8
  let x := x ||| x >>> 16
  let x := x ||| x >>> 32
  x + 1

/-- `int file_length = file.tellg()` (compdecomp_pgasus.cpp 46, 51) passed on as `size_t` (58) -/
def pgFileLength (n : Nat) : Nat := ((BitVec.ofNat 32 n).signExtend 64).toNat

/-- `getPaddedInputBufferLength`, compdecomp_pgasus.cpp 36-41; `p` = `get_nprocs()` -/
def pgPadded (p n : Nat) : Nat := (n + sampleChunk * p - 1) % 2 ^ 64 / (sampleChunk * p) * (sampleChunk * p)

/-- The memory of a node: `input_buffers[node]`, `compressed_buffers[node]`, `decompressed_buffers[node]`,
`compressed_chunk_sizes[node]`, `decompressed_chunk_sizes[node]`, compdecomp_pgasus.cpp 84-93 -/
structure NodeMem where
  inp : List Byte
  comp : List Byte
  dec : List Byte
  csizes : List Nat
  dsizes : List Nat
  deriving DecidableEq, Repr

/-- Addresses of the three buffers of every node (/repo/sample/compdecomp_pgasus.cpp 84-86, 115, 122, 129) -/
structure PgAddrs where
  ain : Nat → Nat
  acomp : Nat → Nat
  adec : Nat → Nat

/-- Contents of the arrays of sizes of every node before they are written (/repo/sample/compdecomp_pgasus.cpp 136, 142) -/
structure PgJunk where
  csizes : Nat → List Nat
  dsizes : Nat → List Nat

/-- One round of the loop of a compressing thread, compdecomp_pgasus.cpp 168-178, without what follows
an error: the new memory and whether `err == 0`.  The products do not wrap: chunk numbers that large are
outside of the array of sizes. -/
def pgCompress (f : ChunkFn) (a : PgAddrs) (k i : Nat) (m : NodeMem) : BRes (NodeMem × Bool) := do
  let src ← BRes.access (readBytes m.inp (i * sampleChunk) sampleChunk)
  let dst ← BRes.access (readBytes m.comp (i * (sampleChunk * 2)) (sampleChunk * 2))
  let _ ← BRes.access m.csizes[i]?
  match f (a.ain k + i * sampleChunk) (a.acomp k + i * (sampleChunk * 2)) src dst with
  | .ub => .ub
  | .timeout => .timeout
  | .ret rc n buf => do
    let comp ← BRes.access (writeBytes m.comp (i * (sampleChunk * 2)) buf)
    .ok ({ m with comp := comp, csizes := m.csizes.set i n }, decide (rc = none))

/-- One round of the loop of a decompressing thread, compdecomp_pgasus.cpp 194-205 -/
def pgDecompress (g : ChunkFn) (a : PgAddrs) (k i : Nat) (m : NodeMem) : BRes (NodeMem × Bool) := do
  let n ← BRes.access m.csizes[i]?
  let src ← BRes.access (readBytes m.comp (i * (sampleChunk * 2)) n)
  let dst ← BRes.access (readBytes m.dec (i * sampleChunk) sampleChunk)
  let _ ← BRes.access m.dsizes[i]?
  match g (a.acomp k + i * (sampleChunk * 2)) (a.adec k + i * sampleChunk) src dst with
  | .ub => .ub
  | .timeout => .timeout
  | .ret rc n buf => do
    let dec ← BRes.access (writeBytes m.dec (i * sampleChunk) buf)
    .ok ({ m with dec := dec, dsizes := m.dsizes.set i n }, decide (rc = none))

/-- `for (chunkNum = i; chunkNum <= e; chunkNum++)`, compdecomp_pgasus.cpp 167-179, 193-206,
compdecomp_pgasus_omp.cpp 162-173, 191-203.  With `stop` (compdecomp_pgasus.cpp) the thread ends after
an error; otherwise it goes on. -/
def pgLoop (body : Nat → NodeMem → BRes (NodeMem × Bool)) (stop : Bool) (e : Nat) : Nat → Nat → NodeMem → BRes NodeMem
  | 0, _, _ => .timeout
  | fuel + 1, i, m =>
    if i ≤ e then do
      let (m, good) ← body i m
      if stop && !good then .ok m else pgLoop body stop e fuel (i + 1) m
    else .ok m

/-- The function a worker thread runs, compdecomp_pgasus.cpp 159-181, 185-208: thread `tid` of node
`k`; `cpn`, `cpc`: `chunks_per_node`, `chunks_per_cpu`.  `chunkEndLocal` is computed modulo
2^64.  The loop is over before it has run `cpn + 1` rounds, since round `cpn` would be outside of the
arrays of sizes. -/
def pgThread (body : Nat → Nat → NodeMem → BRes (NodeMem × Bool)) (stop : Bool) (cpn cpc : Nat) (kt : Nat × Nat)
    (ms : List NodeMem) : BRes (List NodeMem) := do
  let m ← BRes.access ms[kt.1]?
  let m ← pgLoop (body kt.1) stop ((kt.2 * cpc + cpc + 2 ^ 64 - 1) % 2 ^ 64) (cpn + 1) (kt.2 * cpc) m
  .ok (ms.set kt.1 m)

/-- `numa::wait(numa::forEachThread(…))`, the threads in a given order (/repo/sample/compdecomp_pgasus.cpp 159-181, 185-208) -/
def pgAll (body : Nat → Nat → NodeMem → BRes (NodeMem × Bool)) (stop : Bool) (cpn cpc : Nat) :
    List (Nat × Nat) → List NodeMem → BRes (List NodeMem)
  | [], ms => .ok ms
  | kt :: l, ms => do pgAll body stop cpn cpc l (← pgThread body stop cpn cpc kt ms)

/-- The threads: node and number on the node; `ts` has the number of threads of every node (/repo/sample/compdecomp_pgasus.cpp 159-161, 185-187) -/
def pgThreads (ts : List Nat) : List (Nat × Nat) :=
  (List.range ts.length).flatMap fun k => (List.range (ts.getD k 0)).map fun t => (k, t)

/-- The memory of node `k` after compdecomp_pgasus.cpp 111-152: three buffers of zeros, then
`file.read`, which after the end of the file does not read anything. -/
def pgNode (file : List Byte) (j : PgJunk) (len cpn k : Nat) : NodeMem :=
  let part := (file.drop (k * len)).take len
  ⟨part ++ List.replicate (len - part.length) 0, List.replicate (len * 2) 0, List.replicate len 0,
    (j.csizes k).take cpn, (j.dsizes k).take cpn⟩

/-- Outcome: the argument of `exit` or the value returned by `main`, and the contents of the buffers
`decompressed_buffers` (/repo/sample/compdecomp_pgasus.cpp 218-226) -/
structure PgOut where
  code : Int
  dec : List (List Byte)
  deriving DecidableEq, Repr

/-- `main`, compdecomp_pgasus.cpp 43-226 (`stop`) and compdecomp_pgasus_omp.cpp 43-222 (not `stop`).
`file` is `none` without an argument (a null pointer is given to `std::ifstream`), `some none` if the
file cannot be opened. `p` = `get_nprocs()`. -/
def pgMain (stop : Bool) (f g : ChunkFn) (a : PgAddrs) (j : PgJunk) (avail p : Nat) (ts : List Nat)
    (sched1 sched2 : List (Nat × Nat) → List (Nat × Nat)) (file : Option (Option (List Byte))) : BRes PgOut :=
  match file with
  | none => .ub
  | some none => .ok ⟨1, []⟩
  | some (some contents) =>
    let total := pgPadded p (pgFileLength contents.length)
    -- 66, 98, 100: division by zero
    if ts.length = 0 ∨ p / ts.length = 0 then .ub
    else
      let len := total / ts.length
      let cpn := len / sampleChunk
      let cpc := cpn / (p / ts.length)
      -- 115-146
      if avail < len ∨ avail < len * 2 % 2 ^ 64 ∨ avail < cpn * 8 then .ok ⟨1, []⟩
      else do
        let ms := (List.range ts.length).map (pgNode contents j len cpn)
        let ms ← pgAll (pgCompress f a) stop cpn cpc (sched1 (pgThreads ts)) ms
        let ms ← pgAll (pgDecompress g a) stop cpn cpc (sched2 (pgThreads ts)) ms
        -- 218-225
        .ok ⟨if ms.all fun m => decide (m.inp = m.dec) then 0 else -47, ms.map (·.dec)⟩

end Lib842
