import Verif.Model.Sync
import Verif.SpecDStream
/-!
# The decompression stream

`src/stream/DataDecompressionStream.cpp`: the worker threads, `start`, `push_block`, `finalize`
and the destructor, as a transition system, in the same way as `Verif/Model/CompStream.lean`.  A
step is one critical section, one test, the decompression of one block or one callback.  There are
two condition variables; `notify_one` wakes any one of the threads that sleep, if there is one.

The decompression of a block itself is in `Verif/Model/StreamBlock.lean`; here it succeeds or
fails in any way.  Simplifications: the destructor is one step up to the `join`; logging and
statistics are left out; callbacks do not throw.
-/

namespace Lib842
open Spec

/-- Where a worker thread is in `loop_decompress_thread` (/repo/src/stream/DataDecompressionStream.cpp 91-208) -/
inductive DPc
  /-- before the test of `while (!_quit)`, 103 -/
  | top
  /-- evaluates the predicate of the trigger wait, 109-111 -/
  | trig
  /-- asleep there -/
  | trigSleep
  /-- evaluates the predicate of the queue wait, 128-130, and takes a block, 131-136 -/
  | pop
  /-- asleep there -/
  | popSleep
  /-- in `handle_block`, 143 -/
  | handle (b : Nat)
  /-- the block failed, before the critical section of 150-153 -/
  | failed
  /-- before the barrier, 169 -/
  | finArr
  /-- in the barrier -/
  | finIn
  /-- the leader before its critical section, 174-187 -/
  | reset
  /-- the leader before the finalize callback, 189 -/
  | callback (ok : Bool)
  /-- the leader in the finalize callback -/
  | inCallback
  /-- the thread has ended -/
  | done
  deriving DecidableEq, Repr

/-- A worker thread: its locals in `loop_decompress_thread`, /repo/src/stream/DataDecompressionStream.cpp 91-208. -/
structure DThr where
  pc : DPc
  /-- `last_trigger` -/
  lastTrig : BitVec 32
  deriving DecidableEq, Repr

/-- The stream: its members (decomp.h 78-113), its threads, and the trace. -/
structure DS (N : Nat) where
  trig : BitVec 32
  queue : List Nat
  error : Bool
  finalizing : Bool
  quit : Bool
  bar : Bar N
  thr : Fin N → DThr
  log : List DEv

/-- The constructor, DataDecompressionStream.cpp 13-36, and the start of the threads, 102 -/
def DS.init (N : Nat) : DS N where
  trig := 0
  queue := []
  error := false
  finalizing := false
  quit := false
  bar := Bar.init N
  thr := fun _ => { pc := .top, lastTrig := 0 }
  log := []

/-- `_trigger_changed.notify_all()` (/repo/src/stream/DataDecompressionStream.cpp 43, 64) -/
def DThr.wakeT (th : DThr) : DThr :=
  match th.pc with
  | .trigSleep => { th with pc := .trig }
  | _ => th

/-- `_queue_available.notify_all()` (/repo/src/stream/DataDecompressionStream.cpp 44, 88) -/
def DThr.wakeQ (th : DThr) : DThr :=
  match th.pc with
  | .popSleep => { th with pc := .pop }
  | _ => th

variable {N : Nat}

/-- Replace the state of one thread (part of the model only, no counterpart in /repo). -/
def DS.setThr (s : DS N) (t : Fin N) (th : DThr) : DS N := { s with thr := Function.update s.thr t th }

/-- Move one thread on (part of the model only, no counterpart in /repo). -/
def DS.setPc (s : DS N) (t : Fin N) (pc : DPc) : DS N := s.setThr t { s.thr t with pc := pc }

/-- The steps of the worker thread `t`, DataDecompressionStream.cpp 91-208. -/
inductive DWork (t : Fin N) (s : DS N) : DS N → Prop
  | topQuit (h : (s.thr t).pc = .top) (hq : s.quit = true) : DWork t s (s.setPc t .done)
  | topGo (h : (s.thr t).pc = .top) (hq : s.quit = false) : DWork t s (s.setPc t .trig)
  | trigGo (h : (s.thr t).pc = .trig) (hp : s.trig ≠ (s.thr t).lastTrig ∨ s.quit = true) :
      DWork t s (s.setThr t { pc := .pop, lastTrig := s.trig })
  | trigWait (h : (s.thr t).pc = .trig) (hp : s.trig = (s.thr t).lastTrig ∧ s.quit = false) :
      DWork t s (s.setPc t .trigSleep)
  | popWait (h : (s.thr t).pc = .pop) (hp : s.queue = [] ∧ s.finalizing = false ∧ s.quit = false) :
      DWork t s (s.setPc t .popSleep)
  | popBreak (h : (s.thr t).pc = .pop) (hp : (s.finalizing = true ∧ s.queue = []) ∨ s.quit = true) :
      DWork t s (s.setPc t .finArr)
  | popTake {b : Nat} {q : List Nat} (h : (s.thr t).pc = .pop) (hq : s.quit = false) (hp : s.queue = b :: q) :
      DWork t s ({ s with queue := q, log := .begin b :: s.log }.setPc t (.handle b))
  | handleOk {b : Nat} (h : (s.thr t).pc = .handle b) :
      DWork t s ({ s with log := .ended b true :: s.log }.setPc t .pop)
  | handleFail {b : Nat} (h : (s.thr t).pc = .handle b) :
      DWork t s ({ s with log := .ended b false :: s.log }.setPc t .failed)
  | failed (h : (s.thr t).pc = .failed) :
      DWork t s ({ s with error := true, queue := [] }.setPc t .pop)
  | finArrive (h : (s.thr t).pc = .finArr) :
      DWork t s ({ s with bar := s.bar.arrive t }.setPc t .finIn)
  | recheck {g : BitVec 32} (hw : s.bar.wt t = .awake g) :
      DWork t s { s with bar := s.bar.recheck t g }
  | finOut (h : (s.thr t).pc = .finIn) (hw : s.bar.wt t = .out) :
      DWork t s (s.setPc t (if t.val = 0 then .reset else .top))
  | resetQuit (h : (s.thr t).pc = .reset) (hq : s.quit = true) : DWork t s (s.setPc t .top)
  | reset (h : (s.thr t).pc = .reset) (hq : s.quit = false) :
      DWork t s ({ s with error := false, finalizing := false }.setPc t (.callback (!s.error)))
  | callback {ok : Bool} (h : (s.thr t).pc = .callback ok) :
      DWork t s ({ s with log := .finalized ok :: s.log }.setPc t .inCallback)
  | callbackDone (h : (s.thr t).pc = .inCallback) : DWork t s (s.setPc t .top)

/-- The calls of the user, DataDecompressionStream.cpp 38-53, 59-89, under the contract that
operations do not overlap, that blocks are pushed between `start` and `finalize`, and that the
stream is not used after it is destroyed. -/
inductive DUser (s : DS N) : DS N → Prop
  | start (hq : s.quit = false) (hm : dmayStart s.log) :
      DUser s { s with trig := s.trig + 1, thr := fun t => (s.thr t).wakeT, log := .start :: s.log }
  | pushErr {b : Nat} (hq : s.quit = false) (hm : dmayPush s.log) (he : s.error = true) :
      DUser s { s with log := .refused b :: s.log }
  | pushNone {b : Nat} (hq : s.quit = false) (hm : dmayPush s.log) (he : s.error = false)
      (hn : ∀ t, (s.thr t).pc ≠ .popSleep) :
      DUser s { s with queue := s.queue ++ [b], log := .push b :: s.log }
  | pushWake {b : Nat} {t : Fin N} (hq : s.quit = false) (hm : dmayPush s.log) (he : s.error = false)
      (hn : (s.thr t).pc = .popSleep) :
      DUser s ({ s with queue := s.queue ++ [b], log := .push b :: s.log }.setPc t .pop)
  | finalize {cancel : Bool} (hq : s.quit = false) (hm : dmayPush s.log) :
      DUser s { s with
        finalizing := true, queue := if cancel then [] else s.queue, thr := fun t => (s.thr t).wakeQ
        log := .finalize cancel :: s.log }
  | destroy (hq : s.quit = false) :
      DUser s { s with
        quit := true, thr := fun t => (s.thr t).wakeT.wakeQ, bar := s.bar.interrupt, log := .destroy :: s.log }

/-- A wakeup without a notification (what `std::condition_variable` may do; no counterpart in /repo beyond the waits of /repo/src/stream/DataDecompressionStream.cpp 109, 128) -/
inductive DSpurious (s : DS N) : DS N → Prop
  | cvT {t : Fin N} (h : (s.thr t).pc = .trigSleep) : DSpurious s (s.setPc t .trig)
  | cvQ {t : Fin N} (h : (s.thr t).pc = .popSleep) : DSpurious s (s.setPc t .pop)
  | bar {t : Fin N} {g : BitVec 32} (h : s.bar.wt t = .asleep g) :
      DSpurious s { s with bar := s.bar.spurious t }

/-- All executions (of /repo/src/stream/DataDecompressionStream.cpp 13-208) -/
inductive DReach : DS N → Prop
  | init : DReach (DS.init N)
  | work {s s' : DS N} {t : Fin N} : DReach s → DWork t s s' → DReach s'
  | user {s s' : DS N} : DReach s → DUser s s' → DReach s'
  | spurious {s s' : DS N} : DReach s → DSpurious s s' → DReach s'

end Lib842
