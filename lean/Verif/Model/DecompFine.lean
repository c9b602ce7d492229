import Verif.Model.DecompStream
/-!
# The decompression stream, one access at a time

`src/stream/DataDecompressionStream.cpp` again, every access to a member of the stream a step of its own (`Model/DecompStream` takes a critical
section to be one step), as in `Model/CompFine`.  Two members that `Model/DecompStream` leaves out are here: `_finalize_callback` and `_ptr`.
The barrier is as in `Model/Sync` (its own accesses: `Model/BarrierFine`).

A call of the user appears in the trace with its notification (`push_block` that refuses a block: with the test of `_error`; the destructor: with
the interruption of the barrier).

Simplifications: as in `Model/DecompStream`, but the destructor is no longer one step.  Callbacks are named by numbers, `none` is an empty
`std::function`; after a move its value is unspecified.
-/

namespace Lib842
open Spec

/-- Where a worker thread is in `loop_decompress_thread` (/repo/src/stream/DataDecompressionStream.cpp 91-208) -/
inductive GPc
  /-- before the test of `while (!_quit)`, 103 -/
  | top
  /-- before `lock`, 108 -/
  | trigLock
  /-- before `_trigger != last_trigger`, 110 -/
  | trigCmp
  /-- they were equal; before `|| _quit`, 110 -/
  | trigQuit
  /-- asleep in `_trigger_changed.wait`, 109 -/
  | trigSleep
  /-- woken up, before it locks the mutex again -/
  | trigWoken
  /-- before `last_trigger = _trigger`, 112 -/
  | trigRead
  /-- before the destructor of `lock`, 113 -/
  | trigUnlock
  /-- before `lock`, 127 -/
  | popLock
  /-- before `!_queue.empty()`, 129 -/
  | popEmpty
  /-- it was empty; before `|| _finalizing`, 129 -/
  | popFin
  /-- it was false; before `|| _quit`, 129 -/
  | popQuit
  /-- asleep in `_queue_available.wait`, 128 -/
  | popSleep
  /-- woken up, before it locks the mutex again -/
  | popWoken
  /-- before `_finalizing`, 131 -/
  | brkFin
  /-- it was true; before `&& _queue.empty()`, 131 -/
  | brkEmpty
  /-- before `|| _quit`, 131 -/
  | brkQuit
  /-- before `block = std::move(_queue.front())`, 135 -/
  | popFront
  /-- before `_queue.pop()`, 136 -/
  | popPop (b : Nat)
  /-- before the destructor of `lock`, 137 -/
  | popUnlock (b : Nat)
  /-- `break`, before the destructor of `lock`, 132 -/
  | brkUnlock
  /-- in `handle_block`, 143 -/
  | handle (b : Nat)
  /-- the block failed, before `lock`, 150 -/
  | failLock
  /-- before `first_error = !_error`, 151 -/
  | failRead
  /-- before `_error = true`, 152 -/
  | failErr
  /-- before `_queue = std::queue<Block>()`, 153 -/
  | failQueue
  /-- before the destructor of `lock`, 154 -/
  | failUnlock
  /-- before the barrier, 169 -/
  | finArr
  /-- in the barrier -/
  | finIn
  /-- the leader before `lock`, 175 -/
  | rLock
  /-- before `quit = _quit`, 179 -/
  | rQuit
  /-- before `error = _error`, 181 -/
  | rErr
  /-- before `_error = false`, 182; `e` is `error` -/
  | rErrSet (e : Bool)
  /-- before `_finalizing = false`, 183 -/
  | rFin (e : Bool)
  /-- before `finalize_callback = std::move(_finalize_callback)`, 184 -/
  | rCb (e : Bool)
  /-- before `_finalize_callback = std::function<void(bool)>()`, 185; `g` is `finalize_callback` -/
  | rCbClear (e : Bool) (g : Option Nat)
  /-- before the destructor of `lock`, 187, with `quit` false -/
  | rUnlock (e : Bool) (g : Option Nat)
  /-- before the destructor of `lock`, 187, with `quit` true -/
  | rUnlockQuit
  /-- the leader before the finalize callback, 189 -/
  | callback (ok : Bool) (g : Option Nat)
  /-- the leader in the finalize callback -/
  | inCallback
  /-- the thread has ended -/
  | done
  deriving DecidableEq, Repr

/-- Where the user is in `start` (59-65), `push_block` (67-80), `finalize` (82-89) or the destructor (38-53). -/
inductive GUsr
  /-- in none of them -/
  | idle
  /-- `start`, before `_ptr = ptr`, 60 -/
  | stPtr (p : Nat)
  /-- before `lock`, 62 -/
  | stLock (p : Nat)
  /-- before `_trigger++`, 63 -/
  | stTrig (p : Nat)
  /-- before `_trigger_changed.notify_all()`, 64 -/
  | stNotify (p : Nat)
  /-- `push_block`, before `lock`, 68 -/
  | puLock (b : Nat)
  /-- before `assert(!_finalizing)`, 69 -/
  | puAssert (b : Nat)
  /-- before `if (_error)`, 70 -/
  | puErr (b : Nat)
  /-- before `_queue.push(std::move(dm))`, 77 -/
  | puPush (b : Nat)
  /-- before `_queue_available.notify_one()`, 78 -/
  | puNotify (b : Nat)
  /-- `finalize`, before `lock`, 83 -/
  | fnLock (cancel : Bool) (g : Nat)
  /-- before `_finalizing = true`, 84 -/
  | fnFlag (cancel : Bool) (g : Nat)
  /-- before `_finalize_callback = std::move(finalize_callback)`, 85 -/
  | fnCb (cancel : Bool) (g : Nat)
  /-- before lines 86-87 -/
  | fnQueue (cancel : Bool)
  /-- before `_queue_available.notify_all()`, 88 -/
  | fnNotify (cancel : Bool)
  /-- before the destructor of `lock`, 65, 80 or 89 -/
  | unlock
  /-- the destructor, before `lock`, 40 -/
  | dsLock
  /-- before `_quit = true`, 41 -/
  | dsQuit
  /-- before `_trigger_changed.notify_all()`, 43 -/
  | dsNotT
  /-- before `_queue_available.notify_all()`, 44 -/
  | dsNotQ
  /-- before `_finalize_barrier.interrupt()`, 48 -/
  | dsIntr
  /-- before the destructor of `lock`, 49 -/
  | dsUnlock
  /-- in `join`, 51-52 -/
  | dsJoin
  /-- `assert` failed, 69 -/
  | aborted
  deriving DecidableEq, Repr

/-- A worker thread: its locals in `loop_decompress_thread` (/repo/src/stream/DataDecompressionStream.cpp 91-208) -/
structure GThr where
  pc : GPc
  /-- `last_trigger` -/
  lastTrig : BitVec 32
  deriving DecidableEq, Repr

/-- Callbacks given to `finalize`, and the calls of callbacks (/repo/src/stream/DataDecompressionStream.cpp 85, 189) -/
inductive CbEv
  | given (g : Nat)
  | called (g : Option Nat)
  deriving DecidableEq, Repr

/-- The stream: its members (decomp.h 78-113), its threads, its user (`none` as owner of the mutex), and the traces.  `opPtr` is the argument of
the last `start` in the trace. -/
structure GS (N : Nat) where
  owner : Option (Option (Fin N))
  trig : BitVec 32
  ptr : Nat
  queue : List Nat
  error : Bool
  finalizing : Bool
  cb : Option Nat
  quit : Bool
  bar : Bar N
  thr : Fin N → GThr
  usr : GUsr
  log : List DEv
  cbs : List CbEv
  opPtr : Nat

/-- The constructor, DataDecompressionStream.cpp 13-36, and the start of the threads, 102.  `_ptr` is not initialized. -/
def GS.init (N p : Nat) : GS N where
  owner := none
  trig := 0
  ptr := p
  queue := []
  error := false
  finalizing := false
  cb := none
  quit := false
  bar := Bar.init N
  thr := fun _ => { pc := .top, lastTrig := 0 }
  usr := .idle
  log := []
  cbs := []
  opPtr := p

/-- `_trigger_changed.notify_all()`: asleep becomes woken up (/repo/src/stream/DataDecompressionStream.cpp 43, 64) -/
def GThr.wakeT (th : GThr) : GThr :=
  match th.pc with
  | .trigSleep => { th with pc := .trigWoken }
  | _ => th

/-- `_queue_available.notify_all()` (/repo/src/stream/DataDecompressionStream.cpp 44, 88) -/
def GThr.wakeQ (th : GThr) : GThr :=
  match th.pc with
  | .popSleep => { th with pc := .popWoken }
  | _ => th

variable {N : Nat}

/-- Replace the state of one thread (part of the model only, no counterpart in /repo). -/
def GS.setThr (s : GS N) (t : Fin N) (th : GThr) : GS N := { s with thr := Function.update s.thr t th }

/-- Move one thread on (part of the model only, no counterpart in /repo). -/
def GS.setPc (s : GS N) (t : Fin N) (pc : GPc) : GS N := s.setThr t { s.thr t with pc := pc }

/-- The steps of the worker thread `t`, DataDecompressionStream.cpp 91-208 -/
inductive GWork (t : Fin N) (s : GS N) : GS N → Prop
  | topQuit (h : (s.thr t).pc = .top) (hq : s.quit = true) : GWork t s (s.setPc t .done)
  | topGo (h : (s.thr t).pc = .top) (hq : s.quit = false) : GWork t s (s.setPc t .trigLock)
  -- the trigger phase, 107-113
  | trigLock (h : (s.thr t).pc = .trigLock ∨ (s.thr t).pc = .trigWoken) (ho : s.owner = none) :
      GWork t s ({ s with owner := some (some t) }.setPc t .trigCmp)
  | trigNe (h : (s.thr t).pc = .trigCmp) (hp : s.trig ≠ (s.thr t).lastTrig) : GWork t s (s.setPc t .trigRead)
  | trigEq (h : (s.thr t).pc = .trigCmp) (hp : s.trig = (s.thr t).lastTrig) : GWork t s (s.setPc t .trigQuit)
  | trigQuit (h : (s.thr t).pc = .trigQuit) (hq : s.quit = true) : GWork t s (s.setPc t .trigRead)
  | trigWait (h : (s.thr t).pc = .trigQuit) (hq : s.quit = false) : GWork t s ({ s with owner := none }.setPc t .trigSleep)
  | trigRead (h : (s.thr t).pc = .trigRead) : GWork t s (s.setThr t { pc := .trigUnlock, lastTrig := s.trig })
  | trigUnlock (h : (s.thr t).pc = .trigUnlock) : GWork t s ({ s with owner := none }.setPc t .popLock)
  -- the decompression phase, 122-162
  | popLock (h : (s.thr t).pc = .popLock ∨ (s.thr t).pc = .popWoken) (ho : s.owner = none) :
      GWork t s ({ s with owner := some (some t) }.setPc t .popEmpty)
  | popEmpty (h : (s.thr t).pc = .popEmpty) : GWork t s (s.setPc t (if s.queue = [] then .popFin else .brkFin))
  | popFin (h : (s.thr t).pc = .popFin) : GWork t s (s.setPc t (if s.finalizing then .brkFin else .popQuit))
  | popQuit (h : (s.thr t).pc = .popQuit) (hq : s.quit = true) : GWork t s (s.setPc t .brkFin)
  | popWait (h : (s.thr t).pc = .popQuit) (hq : s.quit = false) : GWork t s ({ s with owner := none }.setPc t .popSleep)
  | brkFin (h : (s.thr t).pc = .brkFin) : GWork t s (s.setPc t (if s.finalizing then .brkEmpty else .brkQuit))
  | brkEmpty (h : (s.thr t).pc = .brkEmpty) : GWork t s (s.setPc t (if s.queue = [] then .brkUnlock else .brkQuit))
  | brkQuit (h : (s.thr t).pc = .brkQuit) : GWork t s (s.setPc t (if s.quit then .brkUnlock else .popFront))
  | popFront {b : Nat} {q : List Nat} (h : (s.thr t).pc = .popFront) (hq : s.queue = b :: q) : GWork t s (s.setPc t (.popPop b))
  | popPop {b : Nat} (h : (s.thr t).pc = .popPop b) :
      GWork t s ({ s with queue := s.queue.tail, log := .begin b :: s.log }.setPc t (.popUnlock b))
  | popUnlock {b : Nat} (h : (s.thr t).pc = .popUnlock b) : GWork t s ({ s with owner := none }.setPc t (.handle b))
  | brkUnlock (h : (s.thr t).pc = .brkUnlock) : GWork t s ({ s with owner := none }.setPc t .finArr)
  | handleOk {b : Nat} (h : (s.thr t).pc = .handle b) : GWork t s ({ s with log := .ended b true :: s.log }.setPc t .popLock)
  | handleFail {b : Nat} (h : (s.thr t).pc = .handle b) : GWork t s ({ s with log := .ended b false :: s.log }.setPc t .failLock)
  | failLock (h : (s.thr t).pc = .failLock) (ho : s.owner = none) : GWork t s ({ s with owner := some (some t) }.setPc t .failRead)
  | failRead (h : (s.thr t).pc = .failRead) : GWork t s (s.setPc t .failErr)
  | failErr (h : (s.thr t).pc = .failErr) : GWork t s ({ s with error := true }.setPc t .failQueue)
  | failQueue (h : (s.thr t).pc = .failQueue) : GWork t s ({ s with queue := [] }.setPc t .failUnlock)
  | failUnlock (h : (s.thr t).pc = .failUnlock) : GWork t s ({ s with owner := none }.setPc t .popLock)
  -- the finalization phase, 169-190
  | finArrive (h : (s.thr t).pc = .finArr) : GWork t s ({ s with bar := s.bar.arrive t }.setPc t .finIn)
  | recheck {g : BitVec 32} (hw : s.bar.wt t = .awake g) : GWork t s { s with bar := s.bar.recheck t g }
  | finOut (h : (s.thr t).pc = .finIn) (hw : s.bar.wt t = .out) : GWork t s (s.setPc t (if t.val = 0 then .rLock else .top))
  | rLock (h : (s.thr t).pc = .rLock) (ho : s.owner = none) : GWork t s ({ s with owner := some (some t) }.setPc t .rQuit)
  | rQuit (h : (s.thr t).pc = .rQuit) : GWork t s (s.setPc t (if s.quit then .rUnlockQuit else .rErr))
  | rErr (h : (s.thr t).pc = .rErr) : GWork t s (s.setPc t (.rErrSet s.error))
  | rErrSet {e : Bool} (h : (s.thr t).pc = .rErrSet e) : GWork t s ({ s with error := false }.setPc t (.rFin e))
  | rFin {e : Bool} (h : (s.thr t).pc = .rFin e) : GWork t s ({ s with finalizing := false }.setPc t (.rCb e))
  | rCb {e : Bool} {x : Option Nat} (h : (s.thr t).pc = .rCb e) : GWork t s ({ s with cb := x }.setPc t (.rCbClear e s.cb))
  | rCbClear {e : Bool} {g : Option Nat} (h : (s.thr t).pc = .rCbClear e g) : GWork t s ({ s with cb := none }.setPc t (.rUnlock e g))
  | rUnlock {e : Bool} {g : Option Nat} (h : (s.thr t).pc = .rUnlock e g) :
      GWork t s ({ s with owner := none }.setPc t (.callback (!e) g))
  | rUnlockQuit (h : (s.thr t).pc = .rUnlockQuit) : GWork t s ({ s with owner := none }.setPc t .top)
  | callback {ok : Bool} {g : Option Nat} (h : (s.thr t).pc = .callback ok g) :
      GWork t s ({ s with log := .finalized ok :: s.log, cbs := .called g :: s.cbs }.setPc t .inCallback)
  | callbackDone (h : (s.thr t).pc = .inCallback) : GWork t s (s.setPc t .top)

/-- The user calls a function, under the contract of `DUser` (/repo/src/stream/DataDecompressionStream.cpp 38, 59, 67, 82) -/
inductive GCall (s : GS N) : GS N → Prop
  | start {p : Nat} (hi : s.usr = .idle) (hm : dmayStart s.log) : GCall s { s with usr := .stPtr p }
  | push {b : Nat} (hi : s.usr = .idle) (hm : dmayPush s.log) : GCall s { s with usr := .puLock b }
  | finalize {cancel : Bool} {g : Nat} (hi : s.usr = .idle) (hm : dmayPush s.log) : GCall s { s with usr := .fnLock cancel g }
  | destroy (hi : s.usr = .idle) : GCall s { s with usr := .dsLock }

/-- The steps of a call of the user, DataDecompressionStream.cpp 38-53 and 59-89; `notify_one` wakes any one of the threads that sleep, if there
is one. -/
inductive GUser (s : GS N) : GS N → Prop
  | stPtr {p : Nat} (h : s.usr = .stPtr p) : GUser s { s with ptr := p, usr := .stLock p }
  | stLock {p : Nat} (h : s.usr = .stLock p) (ho : s.owner = none) : GUser s { s with owner := some none, usr := .stTrig p }
  | stTrig {p : Nat} (h : s.usr = .stTrig p) : GUser s { s with trig := s.trig + 1, usr := .stNotify p }
  | stNotify {p : Nat} (h : s.usr = .stNotify p) :
      GUser s { s with thr := fun t => (s.thr t).wakeT, usr := .unlock, log := .start :: s.log, opPtr := p }
  | puLock {b : Nat} (h : s.usr = .puLock b) (ho : s.owner = none) : GUser s { s with owner := some none, usr := .puAssert b }
  | puAssert {b : Nat} (h : s.usr = .puAssert b) : GUser s { s with usr := if s.finalizing then .aborted else .puErr b }
  | puRefuse {b : Nat} (h : s.usr = .puErr b) (he : s.error = true) : GUser s { s with usr := .unlock, log := .refused b :: s.log }
  | puAccept {b : Nat} (h : s.usr = .puErr b) (he : s.error = false) : GUser s { s with usr := .puPush b }
  | puPush {b : Nat} (h : s.usr = .puPush b) : GUser s { s with queue := s.queue ++ [b], usr := .puNotify b }
  | puNone {b : Nat} (h : s.usr = .puNotify b) (hn : ∀ t, (s.thr t).pc ≠ .popSleep) :
      GUser s { s with usr := .unlock, log := .push b :: s.log }
  | puWake {b : Nat} {t : Fin N} (h : s.usr = .puNotify b) (hn : (s.thr t).pc = .popSleep) :
      GUser s ({ s with usr := .unlock, log := .push b :: s.log }.setPc t .popWoken)
  | fnLock {c : Bool} {g : Nat} (h : s.usr = .fnLock c g) (ho : s.owner = none) : GUser s { s with owner := some none, usr := .fnFlag c g }
  | fnFlag {c : Bool} {g : Nat} (h : s.usr = .fnFlag c g) : GUser s { s with finalizing := true, usr := .fnCb c g }
  | fnCb {c : Bool} {g : Nat} (h : s.usr = .fnCb c g) : GUser s { s with cb := some g, usr := .fnQueue c, cbs := .given g :: s.cbs }
  | fnQueue {c : Bool} (h : s.usr = .fnQueue c) : GUser s { s with queue := if c then [] else s.queue, usr := .fnNotify c }
  | fnNotify {c : Bool} (h : s.usr = .fnNotify c) :
      GUser s { s with thr := fun t => (s.thr t).wakeQ, usr := .unlock, log := .finalize c :: s.log }
  | unlock (h : s.usr = .unlock) : GUser s { s with owner := none, usr := .idle }
  | dsLock (h : s.usr = .dsLock) (ho : s.owner = none) : GUser s { s with owner := some none, usr := .dsQuit }
  | dsQuit (h : s.usr = .dsQuit) : GUser s { s with quit := true, usr := .dsNotT }
  | dsNotT (h : s.usr = .dsNotT) : GUser s { s with thr := fun t => (s.thr t).wakeT, usr := .dsNotQ }
  | dsNotQ (h : s.usr = .dsNotQ) : GUser s { s with thr := fun t => (s.thr t).wakeQ, usr := .dsIntr }
  | dsIntr (h : s.usr = .dsIntr) : GUser s { s with bar := s.bar.interrupt, usr := .dsUnlock, log := .destroy :: s.log }
  | dsUnlock (h : s.usr = .dsUnlock) : GUser s { s with owner := none, usr := .dsJoin }

/-- A wakeup without a notification (what `std::condition_variable` may do; no counterpart in /repo beyond the waits of /repo/src/stream/DataDecompressionStream.cpp 109, 128) -/
inductive GSpurious (s : GS N) : GS N → Prop
  | cvT {t : Fin N} (h : (s.thr t).pc = .trigSleep) : GSpurious s (s.setPc t .trigWoken)
  | cvQ {t : Fin N} (h : (s.thr t).pc = .popSleep) : GSpurious s (s.setPc t .popWoken)
  | bar {t : Fin N} {g : BitVec 32} (h : s.bar.wt t = .asleep g) : GSpurious s { s with bar := s.bar.spurious t }

/-- A step of a worker thread, or of the user within a call (/repo/src/stream/DataDecompressionStream.cpp 38-208) -/
def GStep (s s' : GS N) : Prop := (∃ t, GWork t s s') ∨ GUser s s'

/-- All executions (of /repo/src/stream/DataDecompressionStream.cpp 13-208) -/
inductive GReach : GS N → Prop
  | init {p : Nat} : GReach (GS.init N p)
  | step {s s' : GS N} : GReach s → GStep s s' → GReach s'
  | call {s s' : GS N} : GReach s → GCall s s' → GReach s'
  | spurious {s s' : GS N} : GReach s → GSpurious s s' → GReach s'

end Lib842
