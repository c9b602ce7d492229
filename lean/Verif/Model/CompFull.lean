import Verif.Model.CompFine
import Verif.Model.BarrierFine
/-!
# The compression stream, one access at a time, on the barrier, one access at a time

`Model/CompFine` with the barrier of `Model/BarrierFine` in place of the one with atomic critical sections: the threads of the stream are the
threads that call `arrive_and_wait`, and its user, in the destructor, is the one that calls `interrupt`.  So there are two mutexes: `_mutex` of the
stream, which the user holds during `interrupt`, and that of the barrier.

The steps of the stream that do not concern the barrier are those of `Model/CompFine`; the field `bar` of `FS` is not used (it keeps its initial
value).

Simplifications: as in `Model/CompFine`, except for the barrier.
-/

namespace Lib842
open Spec

/-- The places from which the next step is one of the barrier's (/repo/src/stream/DataCompressionStream.cpp 138, 185) -/
def FPc.atBar : FPc → Bool
  | .epoch (_ + 1) | .epochIn _ | .finArr | .finIn => true
  | _ => false

/-- The stream and its barrier, which has one caller of `interrupt` (/repo/include/lib842/stream/comp.h 88-121) -/
structure XS (N : Nat) where
  st : FS N
  bar : FBar N 1

/-- The constructor, DataCompressionStream.cpp 19-43 -/
def XS.init (N : Nat) : XS N := { st := FS.init N, bar := FBar.init N 1 }

variable {N : Nat}

/-- The steps of the worker thread `t` outside the barrier, and those into it and out of it (/repo/src/stream/DataCompressionStream.cpp 95-228;
barrier.h 30 is the access of `epochArrive` and `finArrive`) -/
inductive XWork (k : Option Nat) (t : Fin N) (x : XS N) : XS N → Prop
  | own {s : FS N} (hb : (x.st.thr t).pc.atBar = false) (h : FWork k t x.st s) : XWork k t x { x with st := s }
  | epochArrive {r : Nat} (h : (x.st.thr t).pc = .epoch (r + 1)) (ho : x.bar.owner = none) :
      XWork k t x { st := x.st.setPc t (.epochIn r), bar := { x.bar with
        owner := some (.inl t), pc := Function.update x.bar.pc t .locked, arr := Function.update x.bar.arr t (x.bar.arr t + 1) } }
  | epochOut {r : Nat} (h : (x.st.thr t).pc = .epochIn r) (hw : x.bar.pc t = .out) :
      XWork k t x { x with st := x.st.setPc t (.epoch r) }
  | finArrive (h : (x.st.thr t).pc = .finArr) (ho : x.bar.owner = none) :
      XWork k t x { st := x.st.setPc t .finIn, bar := { x.bar with
        owner := some (.inl t), pc := Function.update x.bar.pc t .locked, arr := Function.update x.bar.arr t (x.bar.arr t + 1) } }
  | finOut (h : (x.st.thr t).pc = .finIn) (hw : x.bar.pc t = .out) :
      XWork k t x { x with st := x.st.setPc t (if t.val = 0 then .rLock else .top) }

/-- The steps of a call of the user (/repo/src/stream/DataCompressionStream.cpp 45-57, 74-93; barrier.h 46 is the access of `intr`) -/
inductive XUser (x : XS N) : XS N → Prop
  | own {s : FS N} (hb : x.st.usr ≠ .dsIntr ∧ x.st.usr ≠ .dsUnlock) (h : FUser x.st s) : XUser x { x with st := s }
  | intr (h : x.st.usr = .dsIntr) (ho : x.bar.owner = none) :
      XUser x { st := { x.st with usr := .dsUnlock }, bar := { x.bar with owner := some (.inr 0), ipc := Function.update x.bar.ipc 0 .locked } }
  | unlock (h : x.st.usr = .dsUnlock) (hi : x.bar.ipc 0 = .out) : XUser x { x with st := { x.st with owner := none, usr := .dsJoin } }

/-- A step of a worker thread or of the user's call, outside the barrier or inside it (/repo/src/stream/DataCompressionStream.cpp 45-228,
/repo/include/lib842/detail/barrier.h 29-49) -/
inductive XStep (k : Option Nat) (x : XS N) : XS N → Prop
  | work {t : Fin N} {x' : XS N} (h : XWork k t x x') : XStep k x x'
  | user {x' : XS N} (h : XUser x x') : XStep k x x'
  | bar {b : FBar N 1} (h : FBar.Quiet x.bar b) : XStep k x { x with bar := b }

/-- A wakeup without a notification (what `std::condition_variable` may do; waits of /repo/src/stream/DataCompressionStream.cpp 113, 177 and
/repo/include/lib842/detail/barrier.h 37) -/
inductive XSpurious (x : XS N) : XS N → Prop
  | cv {t : Fin N} (h : (x.st.thr t).pc = .trigSleep ∨ (x.st.thr t).pc = .finSleep) :
      XSpurious x { x with st := x.st.setThr t (x.st.thr t).wake }
  | bar {t : Fin N} {g : BitVec 32} (h : x.bar.pc t = .asleep g) :
      XSpurious x { x with bar := { x.bar with pc := Function.update x.bar.pc t (.woken g) } }

/-- All executions (of /repo/src/stream/DataCompressionStream.cpp 19-228) -/
inductive XReach (k : Option Nat) : XS N → Prop
  | init : XReach k (XS.init N)
  | step {x x' : XS N} : XReach k x → XStep k x x' → XReach k x'
  | call {x : XS N} {s : FS N} : XReach k x → FCall x.st s → XReach k { x with st := s }
  | spurious {x x' : XS N} : XReach k x → XSpurious x x' → XReach k x'

end Lib842
