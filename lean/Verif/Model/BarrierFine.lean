import Verif.Model.Sync
/-!
# The barrier, one access at a time

`include/lib842/detail/barrier.h` again, every access to the barrier a step of its own (`Model/Sync` takes a critical section to be one step).  `N`
threads call `arrive_and_wait` again and again, `M` threads call `interrupt` again and again.  The mutex and the condition variable are as in
`Model/LatchFine`.
-/

namespace Lib842

/-- Where a thread is in `arrive_and_wait`, barrier.h 29-41 -/
inductive BarPc
  /-- not in the function, or before `lock`, 30 -/
  | out
  /-- before `++_count == _num_threads`, 31 -/
  | locked
  /-- the comparison was true; before `_generation++`, 32 -/
  | last
  /-- before `_count = 0`, 33 -/
  | genned
  /-- before `_cv.notify_all()`, 34 -/
  | zeroed
  /-- the comparison was false; before `current_generation = _generation`, 36 -/
  | counted
  /-- before the first evaluation of the predicate, 37-39 -/
  | fresh (g : BitVec 32)
  /-- asleep in the condition variable -/
  | asleep (g : BitVec 32)
  /-- woken up, before it locks the mutex again -/
  | woken (g : BitVec 32)
  /-- before a later evaluation of the predicate, 37-39 -/
  | relocked (g : BitVec 32)
  /-- before the destructor of `lock`, 41 -/
  | leaving
  deriving DecidableEq, Repr

/-- Where a thread is in `interrupt`, barrier.h 45-49 -/
inductive IntPc
  /-- not in the function, or before `lock`, 46 -/
  | out
  /-- before `_interrupted = true`, 47 -/
  | locked
  /-- before `_cv.notify_all()`, 48 -/
  | set
  /-- before the destructor of `lock`, 49 -/
  | leaving
  deriving DecidableEq, Repr

/-- The barrier (barrier.h 52-57) and its users; `arr t` counts the calls of thread `t` that have locked the mutex, `ret t` its returns. -/
structure FBar (N M : Nat) where
  /-- the owner of `_mutex` -/
  owner : Option (Fin N ⊕ Fin M)
  count : Nat
  gen : BitVec 32
  intr : Bool
  pc : Fin N → BarPc
  ipc : Fin M → IntPc
  arr : Fin N → Nat
  ret : Fin N → Nat

/-- The constructor, barrier.h 21-26 -/
def FBar.init (N M : Nat) : FBar N M :=
  { owner := none, count := 0, gen := 0, intr := false, pc := fun _ => .out, ipc := fun _ => .out, arr := fun _ => 0, ret := fun _ => 0 }

/-- Effect of `notify_all` on a thread: asleep becomes woken up (/repo/include/lib842/detail/barrier.h 34, 48). -/
def BarPc.wake : BarPc → BarPc
  | .asleep g => .woken g
  | p => p

variable {N M : Nat}

/-- The predicate of the wait, barrier.h 38 -/
def FBar.pred (b : FBar N M) (g : BitVec 32) : Bool := b.gen != g || b.intr

/-- One access, in any order (/repo/include/lib842/detail/barrier.h 29-49) -/
inductive FBar.Step (b : FBar N M) : FBar N M → Prop
  | lock {t : Fin N} (h : b.pc t = .out) (ho : b.owner = none) :
      FBar.Step b { b with owner := some (.inl t), pc := Function.update b.pc t .locked, arr := Function.update b.arr t (b.arr t + 1) }
  | countLast {t : Fin N} (h : b.pc t = .locked) (hc : b.count + 1 = N) :
      FBar.Step b { b with count := b.count + 1, pc := Function.update b.pc t .last }
  | countOther {t : Fin N} (h : b.pc t = .locked) (hc : b.count + 1 ≠ N) :
      FBar.Step b { b with count := b.count + 1, pc := Function.update b.pc t .counted }
  | gen {t : Fin N} (h : b.pc t = .last) :
      FBar.Step b { b with gen := b.gen + 1, pc := Function.update b.pc t .genned }
  | zero {t : Fin N} (h : b.pc t = .genned) :
      FBar.Step b { b with count := 0, pc := Function.update b.pc t .zeroed }
  | notify {t : Fin N} (h : b.pc t = .zeroed) :
      FBar.Step b { b with pc := Function.update (fun u => (b.pc u).wake) t .leaving }
  | readGen {t : Fin N} (h : b.pc t = .counted) :
      FBar.Step b { b with pc := Function.update b.pc t (.fresh b.gen) }
  | predTrue {t : Fin N} {g : BitVec 32} (h : b.pc t = .fresh g ∨ b.pc t = .relocked g) (hp : b.pred g = true) :
      FBar.Step b { b with pc := Function.update b.pc t .leaving }
  | predFalse {t : Fin N} {g : BitVec 32} (h : b.pc t = .fresh g ∨ b.pc t = .relocked g) (hp : b.pred g = false) :
      FBar.Step b { b with owner := none, pc := Function.update b.pc t (.asleep g) }
  | relock {t : Fin N} {g : BitVec 32} (h : b.pc t = .woken g) (ho : b.owner = none) :
      FBar.Step b { b with owner := some (.inl t), pc := Function.update b.pc t (.relocked g) }
  | unlock {t : Fin N} (h : b.pc t = .leaving) :
      FBar.Step b { b with owner := none, pc := Function.update b.pc t .out, ret := Function.update b.ret t (b.ret t + 1) }
  | spurious {t : Fin N} {g : BitVec 32} (h : b.pc t = .asleep g) :
      FBar.Step b { b with pc := Function.update b.pc t (.woken g) }
  | intLock {i : Fin M} (h : b.ipc i = .out) (ho : b.owner = none) :
      FBar.Step b { b with owner := some (.inr i), ipc := Function.update b.ipc i .locked }
  | intSet {i : Fin M} (h : b.ipc i = .locked) :
      FBar.Step b { b with intr := true, ipc := Function.update b.ipc i .set }
  | intNotify {i : Fin M} (h : b.ipc i = .set) :
      FBar.Step b { b with pc := fun u => (b.pc u).wake, ipc := Function.update b.ipc i .leaving }
  | intUnlock {i : Fin M} (h : b.ipc i = .leaving) :
      FBar.Step b { b with owner := none, ipc := Function.update b.ipc i .out }

/-- All executions (of the threads that call /repo/include/lib842/detail/barrier.h 29-49) -/
inductive FBar.Reach : FBar N M → Prop
  | init : FBar.Reach (FBar.init N M)
  | step {b b' : FBar N M} : FBar.Reach b → FBar.Step b b' → FBar.Reach b'

/-- A step that neither begins a call nor is a spurious wakeup (part of the model only, no counterpart in /repo; steps of /repo/include/lib842/detail/barrier.h 29-49) -/
def FBar.Quiet (b b' : FBar N M) : Prop :=
  FBar.Step b b' ∧ (∀ t, b.pc t = .out → b'.pc t = .out) ∧ (∀ i, b.ipc i = .out → b'.ipc i = .out) ∧
    ∀ t g, b.pc t = .asleep g → b' ≠ { b with pc := Function.update b.pc t (.woken g) }

/-- That many such steps in a row (part of the model only, no counterpart in /repo) -/
inductive FBar.Run : Nat → FBar N M → FBar N M → Prop
  | nil {b : FBar N M} : FBar.Run 0 b b
  | cons {k : Nat} {b b' b'' : FBar N M} : FBar.Quiet b b' → FBar.Run k b' b'' → FBar.Run (k + 1) b b''

end Lib842
