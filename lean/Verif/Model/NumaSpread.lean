/-!
# Spreading the threads of a stream among NUMA nodes (`src/stream/numa_spread.cpp`)

With `LIB842_HAVE_NUMA`.  Simplifications: `numa_node_to_cpus` succeeds; `pthread_setaffinity_np` fails (`EINVAL`) exactly
if the set has no CPU the process may use, and otherwise binds the thread to the CPUs of the set that the process may use;
no CPU is taken offline meanwhile.  The trace output is in `Model/NumaTrace`.
-/

namespace Lib842

/-- What libnuma and the operating system tell about the machine (/repo/src/stream/numa_spread.cpp 41, 47, 49, 55, 58, 98) -/
structure NumaMachine where
  /-- `numa_available() != -1` -/
  available : Bool
  /-- `numa_max_node()` -/
  maxNode : Nat
  /-- `numa_get_mems_allowed()`: the nodes whose memory may be used -/
  memAllowed : Nat → Bool
  /-- `numa_node_to_cpus()`: whether the node has the CPU -/
  nodeCpu : Nat → Nat → Bool
  /-- `get_nprocs()`: the number of online CPUs -/
  nprocs : Nat
  /-- the CPUs the process may use -/
  usable : Nat → Bool

/-- `CPU_SETSIZE`; `CPU_SET` ignores larger numbers (/repo/src/stream/numa_spread.cpp 66) -/
def cpuSetSize : Nat := 1024

/-- The CPU set of node `n`, numa_spread.cpp 58-67 -/
def numaCpuset (m : NumaMachine) (n : Nat) : List Nat :=
  (List.range m.nprocs).filter fun c => m.nodeCpu n c && decide (c < cpuSetSize)

/-- The loop over the nodes, numa_spread.cpp 54-69: from node `n` on, `k` nodes left -/
def numaCpusetsFrom (m : NumaMachine) (n : Nat) : Nat → List (List Nat)
  | 0 => []
  | k + 1 => if m.memAllowed n then numaCpuset m n :: numaCpusetsFrom m (n + 1) k else numaCpusetsFrom m (n + 1) k

/-- `get_numa_cpusets`, numa_spread.cpp 39-78 -/
def numaCpusets (m : NumaMachine) : List (List Nat) :=
  if m.available then numaCpusetsFrom m 0 (m.maxNode + 1) else []

/-- `pthread_setaffinity_np`: the CPUs the thread may run on afterwards (/repo/src/stream/numa_spread.cpp 98-103) -/
def setAffinity (m : NumaMachine) (cpuset : List Nat) : Option (List Nat) :=
  if cpuset.filter m.usable = [] then none else some (cpuset.filter m.usable)

/-- The loop over the threads, numa_spread.cpp 92-104, from thread `i` on, `k` threads left; `aff` tells where the
threads may run.  It ends with the first error. -/
def spreadFrom (m : NumaMachine) (sets : List (List Nat)) (i : Nat) (aff : Nat → List Nat) : Nat → Nat → List Nat
  | 0 => aff
  | k + 1 =>
    match setAffinity m (sets.getD (i % sets.length) []) with
    | none => aff
    | some s => spreadFrom m sets (i + 1) (fun t => if t = i then s else aff t) k

/-- `spread_threads_among_numa_nodes`, numa_spread.cpp 82-106, for `T` threads that may run on `aff` before -/
def spreadThreads (m : NumaMachine) (T : Nat) (aff : Nat → List Nat) : Nat → List Nat :=
  if numaCpusets m = [] then aff else spreadFrom m (numaCpusets m) 0 aff T

end Lib842
