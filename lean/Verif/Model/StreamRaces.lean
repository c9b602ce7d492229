import Verif.Model.CompStream
import Verif.Model.DecompStream
import Verif.SpecRace
/-!
# Which members of the streams are accessed where

For every place of `Verif/Model/CompStream.lean` and `Verif/Model/DecompStream.lean`, the members
that are not atomic (`include/lib842/stream/comp.h` 92-117, `decomp.h` 90-113) and that the thread
may access before it gets to the next place, each read or written, holding `_mutex` or not.  Left
out: `_current_offset`, which is atomic; the barrier and the latch, all of whose members are
accessed only under their own mutex (`barrier.h`, `latch.h`); `_impl842` and the loggers, which
are not written after the constructor; `_threads`, which the threads do not access.
-/

namespace Lib842
open Spec

/-- Read / write, without / with the mutex (part of the model only, no counterpart in /repo) -/
def rd {V : Type} (v : V) : Access V := ⟨v, false, false⟩
/-- A read with the mutex (part of the model only, no counterpart in /repo). -/
def rdL {V : Type} (v : V) : Access V := ⟨v, false, true⟩
/-- A write without the mutex (part of the model only, no counterpart in /repo). -/
def wr {V : Type} (v : V) : Access V := ⟨v, true, false⟩
/-- A write with the mutex (part of the model only, no counterpart in /repo). -/
def wrL {V : Type} (v : V) : Access V := ⟨v, true, true⟩

/-- Members of `DataCompressionStream`, comp.h 92-117 -/
inductive CMem
  | trigger | ptr | size | blockCallback | error | finalizing | finalizeCallback | quit | epochLog
  deriving DecidableEq, Repr

/-- The accesses of a worker thread, DataCompressionStream.cpp.  The second argument is `_quit` (lines 95-228) -/
def CPc.accs : CPc → Bool → List (Access CMem)
  | .top, _ => [rd .quit]                                     -- 107
  | .trig, _ => [rdL .trigger, rdL .quit]                     -- 112-116
  | .trigSleep, _ => []
  | .enter, _ => [rd .size]                                   -- 128
  | .fetch, _ => [rd .epochLog, rd .size]                     -- 134-136
  -- lines 134-136 come after the atomic operation of 130, and before the place `epoch`
  | .epoch _, _ => [rd .epochLog, rd .size]
  | .epochIn _, _ => []
  | .handle, _ => [rd .ptr]                                   -- 149, 238, 253
  | .failed, _ => [rdL .error, wrL .error]                    -- 154-159
  -- the function object is in use until the callback returns
  | .deliver _, _ => [rd .blockCallback]                      -- 172
  | .inCall _, _ => [rd .blockCallback]
  | .fin, _ => [rdL .finalizing, rdL .quit]                   -- 176-177
  | .finSleep, _ => []
  | .finArr, _ => []
  | .finIn, _ => []
  | .reset, true => [rdL .quit]                               -- 195
  | .reset, false => [rdL .quit, wrL .ptr, wrL .size, wrL .blockCallback, rdL .error, wrL .error,
      wrL .finalizing, rdL .finalizeCallback, wrL .finalizeCallback]  -- 195-206
  -- the finalize callback has been moved to a local variable
  | .callback _, _ => []
  | .inCallback, _ => []
  | .done, _ => []

/-- The accesses of the user's calls that the contract allows in state `s` (/repo/src/stream/DataCompressionStream.cpp 45-93) -/
inductive CUserAcc {N : Nat} (s : CS N) : Access CMem → Prop
  /-- `start`, 74-84 -/
  | start {a : Access CMem} (hq : s.quit = false) (hm : mayStart s.log)
      (h : a ∈ [wr .ptr, wr .size, wr .blockCallback, rdL .trigger, wrL .trigger]) : CUserAcc s a
  /-- `set_offset_sync_epoch_multiple`, 59-68, between operations -/
  | setEpoch {a : Access CMem} (hq : s.quit = false) (hm : mayStart s.log)
      (h : a ∈ [rd .epochLog, wr .epochLog]) : CUserAcc s a
  /-- `finalize`, 86-93 -/
  | finalize {a : Access CMem} (hq : s.quit = false) (hm : mayFinalize s.log)
      (h : a ∈ [wrL .finalizing, wrL .finalizeCallback]) : CUserAcc s a
  /-- the destructor up to the `join`, 45-57 -/
  | destroy (hq : s.quit = false) : CUserAcc s (wrL .quit)

/-- The accesses of worker `some t` and of the user `none` (/repo/src/stream/DataCompressionStream.cpp 45-228) -/
def CS.acc {N : Nat} (s : CS N) : Option (Fin N) → Access CMem → Prop
  | some t, a => a ∈ (s.thr t).pc.accs s.quit
  | none, a => CUserAcc s a

/-- Members of `DataDecompressionStream`, decomp.h 90-113 -/
inductive DMem
  | trigger | ptr | queue | error | finalizing | finalizeCallback | quit
  deriving DecidableEq, Repr

/-- The accesses of a worker thread, DataDecompressionStream.cpp.  The second argument is `_quit` (lines 91-208) -/
def DPc.accs : DPc → Bool → List (Access DMem)
  | .top, _ => [rd .quit]                                     -- 103
  | .trig, _ => [rdL .trigger, rdL .quit]                     -- 108-112
  | .trigSleep, _ => []
  | .pop, _ => [rdL .queue, rdL .finalizing, rdL .quit, wrL .queue]  -- 127-137
  | .popSleep, _ => []
  | .handle _, _ => [rd .ptr]                                 -- 143, 225, 243
  | .failed, _ => [rdL .error, wrL .error, wrL .queue]        -- 149-154
  | .finArr, _ => []
  | .finIn, _ => []
  | .reset, true => [rdL .quit]                               -- 179
  | .reset, false => [rdL .quit, rdL .error, wrL .error, wrL .finalizing, rdL .finalizeCallback,
      wrL .finalizeCallback]                                  -- 179-186
  | .callback _, _ => []
  | .inCallback, _ => []
  | .done, _ => []

/-- The accesses of the user's calls that the contract allows in state `s` (/repo/src/stream/DataDecompressionStream.cpp 38-89) -/
inductive DUserAcc {N : Nat} (s : DS N) : Access DMem → Prop
  /-- `start`, 59-65 -/
  | start {a : Access DMem} (hq : s.quit = false) (hm : dmayStart s.log)
      (h : a ∈ [wr .ptr, rdL .trigger, wrL .trigger]) : DUserAcc s a
  /-- `push_block`, 67-80 -/
  | push {a : Access DMem} (hq : s.quit = false) (hm : dmayPush s.log)
      (h : a ∈ [rdL .finalizing, rdL .error, wrL .queue]) : DUserAcc s a
  /-- `finalize`, 82-89 -/
  | finalize {a : Access DMem} (hq : s.quit = false) (hm : dmayPush s.log)
      (h : a ∈ [wrL .finalizing, wrL .finalizeCallback, wrL .queue]) : DUserAcc s a
  /-- the destructor up to the `join`, 38-53 -/
  | destroy (hq : s.quit = false) : DUserAcc s (wrL .quit)

/-- The accesses of worker `some t` and of the user `none` (/repo/src/stream/DataDecompressionStream.cpp 38-208) -/
def DS.acc {N : Nat} (s : DS N) : Option (Fin N) → Access DMem → Prop
  | some t, a => a ∈ (s.thr t).pc.accs s.quit
  | none, a => DUserAcc s a

end Lib842
