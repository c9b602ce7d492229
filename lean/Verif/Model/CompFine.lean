import Verif.Model.CompStream
/-!
# The compression stream, one access at a time

`src/stream/DataCompressionStream.cpp` again, every access to a member of the stream a step of its own (`Model/CompStream` takes a critical
section to be one step).  `_mutex` has an owner; the threads that do not need it go on while another thread is inside a critical section: they
read `_quit` and `_size` and change `_current_offset` without it.  The calls of the user are split in the same way, one call at a time (the
contract of `Model/CompStream`).  The barrier is as in `Model/Sync` (its own accesses: `Model/BarrierFine`).

A call of the user appears in the trace when it takes effect: `start` with `_trigger++`, `finalize` and the destructor with the access to
`_current_offset`.

Simplifications: as in `Model/CompStream`, but the destructor is no longer one step.
-/

namespace Lib842
open Spec

/-- Where a worker thread is in `loop_compress_thread` (/repo/src/stream/DataCompressionStream.cpp 95-228) -/
inductive FPc
  /-- before the test of `while (!_quit)`, 107 -/
  | top
  /-- before `lock`, 112 -/
  | trigLock
  /-- before `_trigger != last_trigger`, 114 -/
  | trigCmp
  /-- they were equal; before `|| _quit`, 114 -/
  | trigQuit
  /-- asleep in `_trigger_changed.wait`, 113 -/
  | trigSleep
  /-- woken up, before it locks the mutex again -/
  | trigWoken
  /-- before `last_trigger = _trigger`, 116 -/
  | trigRead
  /-- before the destructor of `lock`, 117 -/
  | trigUnlock
  /-- before `_size` is read, 128 -/
  | enter
  /-- before the `fetch_add`, 130 -/
  | fetch
  /-- before `_size` is read, 135 -/
  | count
  /-- before the test of the loop of the epoch barrier, with `r` rounds to go, 137 -/
  | epoch (r : Nat)
  /-- in `arrive_and_wait`, with `r` rounds to go after it, 138 -/
  | epochIn (r : Nat)
  /-- in `handle_block`, 149 -/
  | handle
  /-- the block failed, before `lock`, 156 -/
  | failLock
  /-- before `first_error = !_error`, 157 -/
  | failRead
  /-- before `_error = true`, 158 -/
  | failErr
  /-- before `_current_offset = BIG_OFFSET_TO_STOP_NEW_WORK`, 159 -/
  | failCur
  /-- before the destructor of `lock`, 160 -/
  | failUnlock
  /-- before the block callback, 172 -/
  | deliver (ok : Bool)
  /-- in the block callback -/
  | inCall (ok : Bool)
  /-- before `lock`, 176 -/
  | finLock
  /-- before `_finalizing` is read, 177 -/
  | finCmp
  /-- it was false; before `|| _quit`, 177 -/
  | finQuit
  /-- asleep there -/
  | finSleep
  /-- woken up, before it locks the mutex again -/
  | finWoken
  /-- before the destructor of `lock`, 178 -/
  | finUnlock
  /-- before the final barrier, 185 -/
  | finArr
  /-- in the final barrier -/
  | finIn
  /-- the leader before `lock`, 191 -/
  | rLock
  /-- before `quit = _quit`, 195 -/
  | rQuit
  /-- before `_size = 0`, 198 -/
  | rSize
  /-- before `_current_offset = 0`, 200 -/
  | rCur
  /-- before `error = _error`, 201 -/
  | rErr
  /-- before `_error = false`, 202; `e` is `error` -/
  | rErrSet (e : Bool)
  /-- before `_finalizing = false`, 203 -/
  | rFin (e : Bool)
  /-- before the destructor of `lock`, 207, with `quit` false -/
  | rUnlock (e : Bool)
  /-- before the destructor of `lock`, 207, with `quit` true -/
  | rUnlockQuit
  /-- the leader before the finalize callback, 209 -/
  | callback (ok : Bool)
  /-- the leader in the finalize callback -/
  | inCallback
  /-- the thread has ended -/
  | done
  deriving DecidableEq, Repr

/-- Where the user is in `start` (74-84), `finalize` (86-93) or the destructor (45-57). -/
inductive UPc
  /-- in none of them -/
  | idle
  /-- `start`, before `_size = size`, 78 -/
  | stSize (n : Nat)
  /-- before `lock`, 81 -/
  | stLock (n : Nat)
  /-- before `_trigger++`, 82 -/
  | stTrig (n : Nat)
  /-- before `_trigger_changed.notify_all()`, 83 -/
  | stNotify
  /-- `finalize`, before `lock`, 87 -/
  | fnLock (cancel : Bool)
  /-- before `_finalizing = true`, 88 -/
  | fnFlag (cancel : Bool)
  /-- before lines 90-91 -/
  | fnCur (cancel : Bool)
  /-- before `_trigger_changed.notify_all()`, 92 -/
  | fnNotify
  /-- before the destructor of `lock`, 84 or 93 -/
  | unlock
  /-- the destructor, before `lock`, 47 -/
  | dsLock
  /-- before `_quit = true`, 48 -/
  | dsQuit
  /-- before `_current_offset = BIG_OFFSET_TO_STOP_NEW_WORK`, 50 -/
  | dsCur
  /-- before `_trigger_changed.notify_all()`, 51 -/
  | dsNotify
  /-- before `_finalize_barrier.interrupt()`, 52 -/
  | dsIntr
  /-- before the destructor of `lock`, 53 -/
  | dsUnlock
  /-- in `join`, 55-56 -/
  | dsJoin
  deriving DecidableEq, Repr

/-- A worker thread: its locals in `loop_compress_thread` (/repo/src/stream/DataCompressionStream.cpp 95-228) -/
structure FThr where
  pc : FPc
  /-- `last_trigger` -/
  lastTrig : BitVec 32
  /-- `last_offset` -/
  lastOff : Nat
  /-- `offset` -/
  off : Nat
  /-- `last_valid_offset` -/
  valid : Nat
  deriving DecidableEq, Repr

/-- The stream: its members (comp.h 88-121), its threads, its user (`none` as owner of the mutex), and the trace. -/
structure FS (N : Nat) where
  owner : Option (Option (Fin N))
  trig : BitVec 32
  size : Nat
  cur : Nat
  error : Bool
  finalizing : Bool
  quit : Bool
  bar : Bar N
  thr : Fin N → FThr
  usr : UPc
  log : List Ev

/-- The constructor, DataCompressionStream.cpp 19-43, and the start of the threads, 106 -/
def FS.init (N : Nat) : FS N where
  owner := none
  trig := 0
  size := 0
  cur := 0
  error := false
  finalizing := false
  quit := false
  bar := Bar.init N
  thr := fun _ => { pc := .top, lastTrig := 0, lastOff := 0, off := 0, valid := 0 }
  usr := .idle
  log := []

/-- `_trigger_changed.notify_all()`: asleep becomes woken up (/repo/src/stream/DataCompressionStream.cpp 51, 83, 92) -/
def FThr.wake (th : FThr) : FThr :=
  match th.pc with
  | .trigSleep => { th with pc := .trigWoken }
  | .finSleep => { th with pc := .finWoken }
  | _ => th

variable {N : Nat}

/-- Replace the state of one thread (part of the model only, no counterpart in /repo). -/
def FS.setThr (s : FS N) (t : Fin N) (th : FThr) : FS N := { s with thr := Function.update s.thr t th }

/-- Move one thread on (part of the model only, no counterpart in /repo). -/
def FS.setPc (s : FS N) (t : Fin N) (pc : FPc) : FS N := s.setThr t { s.thr t with pc := pc }

/-- The steps of the worker thread `t`, DataCompressionStream.cpp 95-228; `k` as in `CWork`. -/
inductive FWork (k : Option Nat) (t : Fin N) (s : FS N) : FS N → Prop
  | topQuit (h : (s.thr t).pc = .top) (hq : s.quit = true) : FWork k t s (s.setPc t .done)
  | topGo (h : (s.thr t).pc = .top) (hq : s.quit = false) : FWork k t s (s.setPc t .trigLock)
  -- the trigger phase, 111-117
  | trigLock (h : (s.thr t).pc = .trigLock ∨ (s.thr t).pc = .trigWoken) (ho : s.owner = none) :
      FWork k t s ({ s with owner := some (some t) }.setPc t .trigCmp)
  | trigNe (h : (s.thr t).pc = .trigCmp) (hp : s.trig ≠ (s.thr t).lastTrig) : FWork k t s (s.setPc t .trigRead)
  | trigEq (h : (s.thr t).pc = .trigCmp) (hp : s.trig = (s.thr t).lastTrig) : FWork k t s (s.setPc t .trigQuit)
  | trigQuit (h : (s.thr t).pc = .trigQuit) (hq : s.quit = true) : FWork k t s (s.setPc t .trigRead)
  | trigWait (h : (s.thr t).pc = .trigQuit) (hq : s.quit = false) :
      FWork k t s ({ s with owner := none }.setPc t .trigSleep)
  | trigRead (h : (s.thr t).pc = .trigRead) :
      FWork k t s (s.setThr t { s.thr t with pc := .trigUnlock, lastTrig := s.trig })
  | trigUnlock (h : (s.thr t).pc = .trigUnlock) : FWork k t s ({ s with owner := none }.setPc t .enter)
  -- the compression phase, 126-173
  | enter (h : (s.thr t).pc = .enter) :
      FWork k t s (s.setThr t { s.thr t with pc := .fetch, lastOff := 0, valid := s.size - s.size % blockSize })
  | fetch (h : (s.thr t).pc = .fetch) :
      FWork k t s ({ s with cur := s.cur + blockSize }.setThr t { s.thr t with pc := .count, off := s.cur })
  | count (h : (s.thr t).pc = .count) :
      FWork k t s (s.setPc t (.epoch (numEpochs k (s.thr t).off s.size (s.thr t).lastOff)))
  | epochArrive {r : Nat} (h : (s.thr t).pc = .epoch (r + 1)) :
      FWork k t s ({ s with bar := s.bar.arrive t }.setPc t (.epochIn r))
  | epochOut {r : Nat} (h : (s.thr t).pc = .epochIn r) (hw : s.bar.wt t = .out) : FWork k t s (s.setPc t (.epoch r))
  | recheck {g : BitVec 32} (hw : s.bar.wt t = .awake g) : FWork k t s { s with bar := s.bar.recheck t g }
  | epochEnd (h : (s.thr t).pc = .epoch 0) :
      FWork k t s (s.setThr t { s.thr t with
        pc := if (s.thr t).valid ≤ (s.thr t).off then .finLock else .handle
        lastOff := (s.thr t).off })
  | handleOk (h : (s.thr t).pc = .handle) : FWork k t s (s.setPc t (.deliver true))
  | handleFail (h : (s.thr t).pc = .handle) : FWork k t s (s.setPc t .failLock)
  | failLock (h : (s.thr t).pc = .failLock) (ho : s.owner = none) :
      FWork k t s ({ s with owner := some (some t) }.setPc t .failRead)
  | failRead (h : (s.thr t).pc = .failRead) : FWork k t s (s.setPc t .failErr)
  | failErr (h : (s.thr t).pc = .failErr) : FWork k t s ({ s with error := true }.setPc t .failCur)
  | failCur (h : (s.thr t).pc = .failCur) : FWork k t s ({ s with cur := bigOffset }.setPc t .failUnlock)
  | failUnlock (h : (s.thr t).pc = .failUnlock) : FWork k t s ({ s with owner := none }.setPc t (.deliver false))
  | deliver {ok : Bool} (h : (s.thr t).pc = .deliver ok) :
      FWork k t s ({ s with
        log := (if ok then .block (s.thr t).off else .failBlock (s.thr t).off) :: s.log }.setPc t (.inCall ok))
  | callDone {ok : Bool} (h : (s.thr t).pc = .inCall ok) :
      FWork k t s ({ s with log := .returned (s.thr t).off :: s.log }.setPc t .fetch)
  -- the wait for `finalize`, 175-178
  | finLock (h : (s.thr t).pc = .finLock ∨ (s.thr t).pc = .finWoken) (ho : s.owner = none) :
      FWork k t s ({ s with owner := some (some t) }.setPc t .finCmp)
  | finTrue (h : (s.thr t).pc = .finCmp) (hp : s.finalizing = true) : FWork k t s (s.setPc t .finUnlock)
  | finFalse (h : (s.thr t).pc = .finCmp) (hp : s.finalizing = false) : FWork k t s (s.setPc t .finQuit)
  | finQuit (h : (s.thr t).pc = .finQuit) (hq : s.quit = true) : FWork k t s (s.setPc t .finUnlock)
  | finWait (h : (s.thr t).pc = .finQuit) (hq : s.quit = false) :
      FWork k t s ({ s with owner := none }.setPc t .finSleep)
  | finUnlock (h : (s.thr t).pc = .finUnlock) : FWork k t s ({ s with owner := none }.setPc t .finArr)
  -- the finalization phase, 185-210
  | finArrive (h : (s.thr t).pc = .finArr) : FWork k t s ({ s with bar := s.bar.arrive t }.setPc t .finIn)
  | finOut (h : (s.thr t).pc = .finIn) (hw : s.bar.wt t = .out) :
      FWork k t s (s.setPc t (if t.val = 0 then .rLock else .top))
  | rLock (h : (s.thr t).pc = .rLock) (ho : s.owner = none) :
      FWork k t s ({ s with owner := some (some t) }.setPc t .rQuit)
  | rQuit (h : (s.thr t).pc = .rQuit) :
      FWork k t s (s.setPc t (if s.quit then .rUnlockQuit else .rSize))
  | rSize (h : (s.thr t).pc = .rSize) : FWork k t s ({ s with size := 0 }.setPc t .rCur)
  | rCur (h : (s.thr t).pc = .rCur) : FWork k t s ({ s with cur := 0 }.setPc t .rErr)
  | rErr (h : (s.thr t).pc = .rErr) : FWork k t s (s.setPc t (.rErrSet s.error))
  | rErrSet {e : Bool} (h : (s.thr t).pc = .rErrSet e) : FWork k t s ({ s with error := false }.setPc t (.rFin e))
  | rFin {e : Bool} (h : (s.thr t).pc = .rFin e) : FWork k t s ({ s with finalizing := false }.setPc t (.rUnlock e))
  | rUnlock {e : Bool} (h : (s.thr t).pc = .rUnlock e) :
      FWork k t s ({ s with owner := none }.setPc t (.callback (!e)))
  | rUnlockQuit (h : (s.thr t).pc = .rUnlockQuit) : FWork k t s ({ s with owner := none }.setPc t .top)
  | callback {ok : Bool} (h : (s.thr t).pc = .callback ok) :
      FWork k t s ({ s with log := .finalized ok :: s.log }.setPc t .inCallback)
  | callbackDone (h : (s.thr t).pc = .inCallback) : FWork k t s (s.setPc t .top)

/-- The user calls a function, under the contract of `CUser` (/repo/src/stream/DataCompressionStream.cpp 45, 74, 86) -/
inductive FCall (s : FS N) : FS N → Prop
  | start {n : Nat} (hi : s.usr = .idle) (hm : mayStart s.log) (hs : n < bigOffset) : FCall s { s with usr := .stSize n }
  | finalize {cancel : Bool} (hi : s.usr = .idle) (hm : mayFinalize s.log) : FCall s { s with usr := .fnLock cancel }
  | destroy (hi : s.usr = .idle) : FCall s { s with usr := .dsLock }

/-- The steps of a call of the user, DataCompressionStream.cpp 45-57 and 74-93 -/
inductive FUser (s : FS N) : FS N → Prop
  | stSize {n : Nat} (h : s.usr = .stSize n) : FUser s { s with size := n, usr := .stLock n }
  | stLock {n : Nat} (h : s.usr = .stLock n) (ho : s.owner = none) : FUser s { s with owner := some none, usr := .stTrig n }
  | stTrig {n : Nat} (h : s.usr = .stTrig n) :
      FUser s { s with trig := s.trig + 1, usr := .stNotify, log := .start n :: s.log }
  | stNotify (h : s.usr = .stNotify) : FUser s { s with thr := fun t => (s.thr t).wake, usr := .unlock }
  | fnLock {c : Bool} (h : s.usr = .fnLock c) (ho : s.owner = none) : FUser s { s with owner := some none, usr := .fnFlag c }
  | fnFlag {c : Bool} (h : s.usr = .fnFlag c) : FUser s { s with finalizing := true, usr := .fnCur c }
  | fnCur {c : Bool} (h : s.usr = .fnCur c) :
      FUser s { s with cur := if c then bigOffset else s.cur, usr := .fnNotify, log := .finalize c :: s.log }
  | fnNotify (h : s.usr = .fnNotify) : FUser s { s with thr := fun t => (s.thr t).wake, usr := .unlock }
  | unlock (h : s.usr = .unlock) : FUser s { s with owner := none, usr := .idle }
  | dsLock (h : s.usr = .dsLock) (ho : s.owner = none) : FUser s { s with owner := some none, usr := .dsQuit }
  | dsQuit (h : s.usr = .dsQuit) : FUser s { s with quit := true, usr := .dsCur }
  | dsCur (h : s.usr = .dsCur) : FUser s { s with cur := bigOffset, usr := .dsNotify, log := .destroy :: s.log }
  | dsNotify (h : s.usr = .dsNotify) : FUser s { s with thr := fun t => (s.thr t).wake, usr := .dsIntr }
  | dsIntr (h : s.usr = .dsIntr) : FUser s { s with bar := s.bar.interrupt, usr := .dsUnlock }
  | dsUnlock (h : s.usr = .dsUnlock) : FUser s { s with owner := none, usr := .dsJoin }

/-- A wakeup without a notification (what `std::condition_variable` may do; no counterpart in /repo beyond the waits of /repo/src/stream/DataCompressionStream.cpp 113, 177) -/
inductive FSpurious (s : FS N) : FS N → Prop
  | cv {t : Fin N} (h : (s.thr t).pc = .trigSleep ∨ (s.thr t).pc = .finSleep) : FSpurious s (s.setThr t (s.thr t).wake)
  | bar {t : Fin N} {g : BitVec 32} (h : s.bar.wt t = .asleep g) : FSpurious s { s with bar := s.bar.spurious t }

/-- A step of a worker thread, or of the user within a call (/repo/src/stream/DataCompressionStream.cpp 45-228) -/
def FStep (k : Option Nat) (s s' : FS N) : Prop := (∃ t, FWork k t s s') ∨ FUser s s'

/-- All executions (of /repo/src/stream/DataCompressionStream.cpp 19-228) -/
inductive FReach (k : Option Nat) : FS N → Prop
  | init : FReach k (FS.init N)
  | step {s s' : FS N} : FReach k s → FStep k s s' → FReach k s'
  | call {s s' : FS N} : FReach k s → FCall s s' → FReach k s'
  | spurious {s s' : FS N} : FReach k s → FSpurious s s' → FReach k s'

end Lib842
