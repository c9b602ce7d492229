import Verif.Model.NumaSpread
/-!
# The spreading of threads with `LIB842_STREAM_INDEPTH_TRACE` (`src/stream/numa_spread.cpp`)

The switch (`include/lib842/stream/common.h` 45) is off in the repository.  Texts are lists of characters, `none` is the
undefined behaviour of `pop_back` on an empty string.  Simplification: writing to the standard output succeeds.
-/

namespace Lib842

/-- The inner loop of `cpu_set_to_string`, /repo/src/stream/numa_spread.cpp 25-26, with `fuel` rounds left: the last CPU of
the range that CPU `c` is in -/
def cpuRun (s : List Nat) : Nat → Nat → Nat
  | 0, c => c
  | fuel + 1, c => if c + 1 < cpuSetSize ∧ c + 1 ∈ s then cpuRun s fuel (c + 1) else c

/-- What is written for the range from `cs` to `c`, /repo/src/stream/numa_spread.cpp 28-31 -/
def cpuItem (cs c : Nat) : List Char :=
  if cs = c then Nat.toDigits 10 cs ++ [','] else Nat.toDigits 10 cs ++ '-' :: Nat.toDigits 10 c ++ [',']

/-- The outer loop, /repo/src/stream/numa_spread.cpp 20-32, with `fuel` rounds left: CPU `c` is next and `out` has been
written -/
def cpuLoop (s : List Nat) : Nat → Nat → List Char → List Char
  | 0, _, out => out
  | fuel + 1, c, out =>
    if c < cpuSetSize then
      if c ∈ s then cpuLoop s fuel (cpuRun s cpuSetSize c + 1) (out ++ cpuItem c (cpuRun s cpuSetSize c))
      else cpuLoop s fuel (c + 1) out
    else out

/-- `cpu_set_to_string`, /repo/src/stream/numa_spread.cpp 17-36; the last character goes in line 34 -/
def cpuSetToString (s : List Nat) : Option (List Char) :=
  if cpuLoop s cpuSetSize 0 [] = [] then none else some (cpuLoop s cpuSetSize 0 []).dropLast

/-- The lines of /repo/src/stream/numa_spread.cpp 71-75 from node number `n` on -/
def traceSets : Nat → List (List Nat) → Option (List Char)
  | _, [] => some []
  | n, s :: rest =>
    match cpuSetToString s, traceSets (n + 1) rest with
    | some t, some r =>
      some ("NUMA CPU set ".toList ++ Nat.toDigits 10 n ++ " contains ".toList ++ t ++ '\n' :: r)
    | _, _ => none

/-- The loop over the threads with the trace, /repo/src/stream/numa_spread.cpp 92-104: see `spreadFrom` -/
def spreadFromT (m : NumaMachine) (sets : List (List Nat)) (i : Nat) (aff : Nat → List Nat) (out : List Char) :
    Nat → Option ((Nat → List Nat) × List Char)
  | 0 => some (aff, out)
  | k + 1 =>
    match cpuSetToString (sets.getD (i % sets.length) []) with
    | none => none
    | some t =>
      let out := out ++ "Assigning thread ".toList ++ Nat.toDigits 10 i ++ " to CPU set ".toList ++ t ++ ['\n']
      match setAffinity m (sets.getD (i % sets.length) []) with
      | none => some (aff, out)
      | some s => spreadFromT m sets (i + 1) (fun t => if t = i then s else aff t) out k

/-- `spread_threads_among_numa_nodes` with the trace, /repo/src/stream/numa_spread.cpp 82-106; the sets are computed (and
written) in the first call only, as they are a static variable (line 88): `first` tells whether this is the first call. -/
def spreadThreadsT (m : NumaMachine) (first : Bool) (T : Nat) (aff : Nat → List Nat) :
    Option ((Nat → List Nat) × List Char) :=
  match (if first then traceSets 0 (numaCpusets m) else some []) with
  | none => none
  | some out => if numaCpusets m = [] then some (aff, out) else spreadFromT m (numaCpusets m) 0 aff out T

end Lib842
