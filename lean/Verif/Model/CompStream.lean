import Verif.Model.Sync
import Verif.SpecStream
/-!
# The compression stream

`src/stream/DataCompressionStream.cpp`: the worker threads, `start`, `finalize` and the
destructor, as a transition system.  A step is one critical section, one atomic operation, one
test or one call of a callback; steps of different threads interleave in any order.  The wait on
`_trigger_changed` is modelled like the wait of the barrier (`Verif/Model/Sync.lean`): a thread
sleeps until it is notified, then evaluates its predicate again.

The compression of a block itself is in `Verif/Model/StreamBlock.lean`; here it succeeds or fails
in any way.

Simplifications: `_current_offset` is a natural number (`C32_offset_bound` shows that the 64-bit
one does not wrap); the destructor is one step up to the `join`; logging and statistics are left
out; callbacks do not throw.
-/

namespace Lib842
open Spec

/-- `BIG_OFFSET_TO_STOP_NEW_WORK`, DataCompressionStream.cpp 11-13 -/
def bigOffset : Nat := 2 ^ 63

/-- The loop of `set_offset_sync_epoch_multiple`, DataCompressionStream.cpp 63-67 -/
def epochLoop : Nat → BitVec 32 → Nat → BitVec 32
  | 0, l, _ => l
  | fuel + 1, l, m => if 0 < m then epochLoop fuel (l + 1) (m / 2) else l

/-- `set_offset_sync_epoch_multiple`, DataCompressionStream.cpp 59-68.  `none` is `UINT_MAX`,
the value for no epochs. -/
def setEpoch (multiple : Nat) : Option Nat :=
  let l := epochLoop 64 (BitVec.allOnes 32) multiple
  if l = BitVec.allOnes 32 then none else some l.toNat

/-- Where a worker thread is in `loop_compress_thread` (/repo/src/stream/DataCompressionStream.cpp 95-228) -/
inductive CPc
  /-- before the test of `while (!_quit)`, 107 -/
  | top
  /-- evaluates the predicate of the trigger wait, 113-115 -/
  | trig
  /-- asleep there -/
  | trigSleep
  /-- after the wait, 126-128 -/
  | enter
  /-- before the `fetch_add`, 130 -/
  | fetch
  /-- before the test of the loop of the epoch barrier, with `r` rounds to go, 137 -/
  | epoch (r : Nat)
  /-- in `arrive_and_wait`, with `r` rounds to go after it, 138 -/
  | epochIn (r : Nat)
  /-- in `handle_block`, 149 -/
  | handle
  /-- the block failed, before the critical section of 155-160 -/
  | failed
  /-- before the block callback, 172 -/
  | deliver (ok : Bool)
  /-- in the block callback -/
  | inCall (ok : Bool)
  /-- evaluates the predicate of the finalize wait, 177 -/
  | fin
  /-- asleep there -/
  | finSleep
  /-- before the final barrier, 185 -/
  | finArr
  /-- in the final barrier -/
  | finIn
  /-- the leader before its critical section, 190-207 -/
  | reset
  /-- the leader before the finalize callback, 209 -/
  | callback (ok : Bool)
  /-- the leader in the finalize callback -/
  | inCallback
  /-- the thread has ended -/
  | done
  deriving DecidableEq, Repr

/-- A worker thread: its locals in `loop_compress_thread` (/repo/src/stream/DataCompressionStream.cpp 95-228) -/
structure CThr where
  pc : CPc
  /-- `last_trigger` -/
  lastTrig : BitVec 32
  /-- `last_offset` -/
  lastOff : Nat
  /-- `offset` -/
  off : Nat
  /-- `last_valid_offset` -/
  valid : Nat
  deriving DecidableEq, Repr

/-- The stream: its members (comp.h 88-121), its threads, and the trace. -/
structure CS (N : Nat) where
  trig : BitVec 32
  size : Nat
  cur : Nat
  error : Bool
  finalizing : Bool
  quit : Bool
  bar : Bar N
  thr : Fin N → CThr
  log : List Ev

/-- The constructor, DataCompressionStream.cpp 19-43, and the start of the threads, 106 -/
def CS.init (N : Nat) : CS N where
  trig := 0
  size := 0
  cur := 0
  error := false
  finalizing := false
  quit := false
  bar := Bar.init N
  thr := fun _ => { pc := .top, lastTrig := 0, lastOff := 0, off := 0, valid := 0 }
  log := []

/-- `_trigger_changed.notify_all()` (/repo/src/stream/DataCompressionStream.cpp 51, 83, 92) -/
def CThr.wake (th : CThr) : CThr :=
  match th.pc with
  | .trigSleep => { th with pc := .trig }
  | .finSleep => { th with pc := .fin }
  | _ => th

variable {N : Nat}

/-- A step of one thread that changes only its own state (part of the model only, no counterpart in /repo) -/
def CS.setThr (s : CS N) (t : Fin N) (th : CThr) : CS N := { s with thr := Function.update s.thr t th }

/-- Move one thread on (part of the model only, no counterpart in /repo). -/
def CS.setPc (s : CS N) (t : Fin N) (pc : CPc) : CS N := s.setThr t { s.thr t with pc := pc }

/-- `num_epochs`, DataCompressionStream.cpp 132-136 (no loop if there are no epochs) -/
def numEpochs (k : Option Nat) (offset size lastOffset : Nat) : Nat :=
  match k with
  | none => 0
  | some k => (min offset size) / 2 ^ k - lastOffset / 2 ^ k

/-- The steps of the worker thread `t`, DataCompressionStream.cpp 95-228. -/
inductive CWork (k : Option Nat) (t : Fin N) (s : CS N) : CS N → Prop
  | topQuit (h : (s.thr t).pc = .top) (hq : s.quit = true) : CWork k t s (s.setPc t .done)
  | topGo (h : (s.thr t).pc = .top) (hq : s.quit = false) : CWork k t s (s.setPc t .trig)
  | trigGo (h : (s.thr t).pc = .trig) (hp : s.trig ≠ (s.thr t).lastTrig ∨ s.quit = true) :
      CWork k t s (s.setThr t { s.thr t with pc := .enter, lastTrig := s.trig })
  | trigWait (h : (s.thr t).pc = .trig) (hp : s.trig = (s.thr t).lastTrig ∧ s.quit = false) :
      CWork k t s (s.setPc t .trigSleep)
  | enter (h : (s.thr t).pc = .enter) :
      CWork k t s (s.setThr t { s.thr t with
        pc := .fetch, lastOff := 0, valid := s.size - s.size % blockSize })
  | fetch (h : (s.thr t).pc = .fetch) :
      CWork k t s ({ s with cur := s.cur + blockSize }.setThr t { s.thr t with
        pc := .epoch (numEpochs k s.cur s.size (s.thr t).lastOff), off := s.cur })
  | epochArrive {r : Nat} (h : (s.thr t).pc = .epoch (r + 1)) :
      CWork k t s ({ s with bar := s.bar.arrive t }.setPc t (.epochIn r))
  | epochOut {r : Nat} (h : (s.thr t).pc = .epochIn r) (hw : s.bar.wt t = .out) :
      CWork k t s (s.setPc t (.epoch r))
  | recheck {g : BitVec 32} (hw : s.bar.wt t = .awake g) :
      CWork k t s { s with bar := s.bar.recheck t g }
  | epochEnd (h : (s.thr t).pc = .epoch 0) :
      CWork k t s (s.setThr t { s.thr t with
        pc := if (s.thr t).valid ≤ (s.thr t).off then .fin else .handle
        lastOff := (s.thr t).off })
  | handleOk (h : (s.thr t).pc = .handle) : CWork k t s (s.setPc t (.deliver true))
  | handleFail (h : (s.thr t).pc = .handle) : CWork k t s (s.setPc t .failed)
  | failed (h : (s.thr t).pc = .failed) :
      CWork k t s ({ s with error := true, cur := bigOffset }.setPc t (.deliver false))
  | deliver {ok : Bool} (h : (s.thr t).pc = .deliver ok) :
      CWork k t s ({ s with
        log := (if ok then .block (s.thr t).off else .failBlock (s.thr t).off) :: s.log }.setPc t
          (.inCall ok))
  | callDone {ok : Bool} (h : (s.thr t).pc = .inCall ok) :
      CWork k t s ({ s with log := .returned (s.thr t).off :: s.log }.setPc t .fetch)
  | finGo (h : (s.thr t).pc = .fin) (hp : s.finalizing = true ∨ s.quit = true) :
      CWork k t s (s.setPc t .finArr)
  | finWait (h : (s.thr t).pc = .fin) (hp : s.finalizing = false ∧ s.quit = false) :
      CWork k t s (s.setPc t .finSleep)
  | finArrive (h : (s.thr t).pc = .finArr) :
      CWork k t s ({ s with bar := s.bar.arrive t }.setPc t .finIn)
  | finOut (h : (s.thr t).pc = .finIn) (hw : s.bar.wt t = .out) :
      CWork k t s (s.setPc t (if t.val = 0 then .reset else .top))
  | resetQuit (h : (s.thr t).pc = .reset) (hq : s.quit = true) : CWork k t s (s.setPc t .top)
  | reset (h : (s.thr t).pc = .reset) (hq : s.quit = false) :
      CWork k t s ({ s with size := 0, cur := 0, error := false, finalizing := false }.setPc t
        (.callback (!s.error)))
  | callback {ok : Bool} (h : (s.thr t).pc = .callback ok) :
      CWork k t s ({ s with log := .finalized ok :: s.log }.setPc t .inCallback)
  | callbackDone (h : (s.thr t).pc = .inCallback) : CWork k t s (s.setPc t .top)

/-- The calls of the user, DataCompressionStream.cpp 45-57 and 74-92, under the contract that
operations do not overlap and that the stream is not used after it is destroyed. -/
inductive CUser (s : CS N) : CS N → Prop
  | start {size : Nat} (hq : s.quit = false) (hm : mayStart s.log) (hs : size < bigOffset) :
      CUser s { s with
        size := size, trig := s.trig + 1, thr := fun t => (s.thr t).wake, log := .start size :: s.log }
  | finalize {cancel : Bool} (hq : s.quit = false) (hm : mayFinalize s.log) :
      CUser s { s with
        finalizing := true, cur := if cancel then bigOffset else s.cur, thr := fun t => (s.thr t).wake
        log := .finalize cancel :: s.log }
  | destroy (hq : s.quit = false) :
      CUser s { s with
        quit := true, cur := bigOffset, thr := fun t => (s.thr t).wake, bar := s.bar.interrupt
        log := .destroy :: s.log }

/-- A wakeup without a notification (what `std::condition_variable` may do; no counterpart in /repo beyond the waits of /repo/src/stream/DataCompressionStream.cpp 113, 177) -/
inductive CSpurious (s : CS N) : CS N → Prop
  | cv {t : Fin N} (h : (s.thr t).pc = .trigSleep ∨ (s.thr t).pc = .finSleep) :
      CSpurious s (s.setThr t (s.thr t).wake)
  | bar {t : Fin N} {g : BitVec 32} (h : s.bar.wt t = .asleep g) :
      CSpurious s { s with bar := s.bar.spurious t }

/-- All executions (of /repo/src/stream/DataCompressionStream.cpp 19-228) -/
inductive CReach (k : Option Nat) : CS N → Prop
  | init : CReach k (CS.init N)
  | work {s s' : CS N} {t : Fin N} : CReach k s → CWork k t s s' → CReach k s'
  | user {s s' : CS N} : CReach k s → CUser s s' → CReach k s'
  | spurious {s s' : CS N} : CReach k s → CSpurious s s' → CReach k s'

end Lib842
