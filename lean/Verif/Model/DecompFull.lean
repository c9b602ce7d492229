import Verif.Model.DecompFine
import Verif.Model.BarrierFine
/-!
# The decompression stream, one access at a time, on the barrier, one access at a time

`Model/DecompFine` with the barrier of `Model/BarrierFine`, as in `Model/CompFull`.

Simplifications: as in `Model/DecompFine`, except for the barrier.
-/

namespace Lib842
open Spec

/-- The places from which the next step is one of the barrier's (/repo/src/stream/DataDecompressionStream.cpp 169) -/
def GPc.atBar : GPc → Bool
  | .finArr | .finIn => true
  | _ => false

/-- The stream and its barrier, which has one caller of `interrupt` (/repo/include/lib842/stream/decomp.h 78-113) -/
structure YS (N : Nat) where
  st : GS N
  bar : FBar N 1

/-- The constructor, DataDecompressionStream.cpp 13-36 -/
def YS.init (N p : Nat) : YS N := { st := GS.init N p, bar := FBar.init N 1 }

variable {N : Nat}

/-- The steps of the worker thread `t` outside the barrier, and those into it and out of it (/repo/src/stream/DataDecompressionStream.cpp 91-208;
barrier.h 30 is the access of `finArrive`) -/
inductive YWork (t : Fin N) (x : YS N) : YS N → Prop
  | own {s : GS N} (hb : (x.st.thr t).pc.atBar = false) (h : GWork t x.st s) : YWork t x { x with st := s }
  | finArrive (h : (x.st.thr t).pc = .finArr) (ho : x.bar.owner = none) :
      YWork t x { st := x.st.setPc t .finIn, bar := { x.bar with
        owner := some (.inl t), pc := Function.update x.bar.pc t .locked, arr := Function.update x.bar.arr t (x.bar.arr t + 1) } }
  | finOut (h : (x.st.thr t).pc = .finIn) (hw : x.bar.pc t = .out) :
      YWork t x { x with st := x.st.setPc t (if t.val = 0 then .rLock else .top) }

/-- The steps of a call of the user (/repo/src/stream/DataDecompressionStream.cpp 38-53, 59-89; barrier.h 46 is the access of `intr`) -/
inductive YUser (x : YS N) : YS N → Prop
  | own {s : GS N} (hb : x.st.usr ≠ .dsIntr ∧ x.st.usr ≠ .dsUnlock) (h : GUser x.st s) : YUser x { x with st := s }
  | intr (h : x.st.usr = .dsIntr) (ho : x.bar.owner = none) :
      YUser x { st := { x.st with usr := .dsUnlock, log := .destroy :: x.st.log }, bar := { x.bar with owner := some (.inr 0), ipc := Function.update x.bar.ipc 0 .locked } }
  | unlock (h : x.st.usr = .dsUnlock) (hi : x.bar.ipc 0 = .out) : YUser x { x with st := { x.st with owner := none, usr := .dsJoin } }

/-- A step of a worker thread or of the user's call, outside the barrier or inside it (/repo/src/stream/DataDecompressionStream.cpp 38-208,
/repo/include/lib842/detail/barrier.h 29-49) -/
inductive YStep (x : YS N) : YS N → Prop
  | work {t : Fin N} {x' : YS N} (h : YWork t x x') : YStep x x'
  | user {x' : YS N} (h : YUser x x') : YStep x x'
  | bar {b : FBar N 1} (h : FBar.Quiet x.bar b) : YStep x { x with bar := b }

/-- A wakeup without a notification (what `std::condition_variable` may do; waits of /repo/src/stream/DataDecompressionStream.cpp 109, 128 and
/repo/include/lib842/detail/barrier.h 37) -/
inductive YSpurious (x : YS N) : YS N → Prop
  | cvT {t : Fin N} (h : (x.st.thr t).pc = .trigSleep) : YSpurious x { x with st := x.st.setPc t .trigWoken }
  | cvQ {t : Fin N} (h : (x.st.thr t).pc = .popSleep) : YSpurious x { x with st := x.st.setPc t .popWoken }
  | bar {t : Fin N} {g : BitVec 32} (h : x.bar.pc t = .asleep g) :
      YSpurious x { x with bar := { x.bar with pc := Function.update x.bar.pc t (.woken g) } }

/-- All executions (of /repo/src/stream/DataDecompressionStream.cpp 13-208) -/
inductive YReach : YS N → Prop
  | init {p : Nat} : YReach (YS.init N p)
  | step {x x' : YS N} : YReach x → YStep x x' → YReach x'
  | call {x : YS N} {s : GS N} : YReach x → GCall x.st s → YReach { x with st := s }
  | spurious {x x' : YS N} : YReach x → YSpurious x x' → YReach x'

end Lib842
