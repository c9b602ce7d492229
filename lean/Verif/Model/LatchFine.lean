import Verif.Model.Sync
/-!
# The latch, one access at a time

`include/lib842/detail/latch.h` again, with the mutex and the condition variable as objects: `Model/Sync` takes a critical section to be one step,
here every access to the latch is a step.  `n` threads call `count_down` once each, `m` threads call `wait` once each.

The mutex: `lock` waits until nobody owns it; when `unlock` has released it, the calling thread does not access it any more (C++ and POSIX allow
that a mutex is destroyed then).  `wait` of a condition variable releases the mutex and falls asleep in one step.
-/

namespace Lib842

/-- Where a thread is in `count_down`, latch.h 27-32 -/
inductive CdPc
  /-- before `lock`, 28 -/
  | before
  /-- before the assertion and the decrement, 29-30 -/
  | locked
  /-- before `notify_all`, 31 -/
  | counted
  /-- before the destructor of `lock`, 32 -/
  | notified
  /-- the call has returned -/
  | done
  deriving DecidableEq, Repr

/-- Where a thread is in `wait`, latch.h 34-37 -/
inductive LwPc
  /-- before `lock`, 35 -/
  | before
  /-- before the evaluation of the predicate, 36 -/
  | locked
  /-- asleep in the condition variable -/
  | asleep
  /-- woken up, before it locks the mutex again -/
  | woken
  /-- before the destructor of `lock`, 37 -/
  | leaving
  /-- the call has returned -/
  | returned
  deriving DecidableEq, Repr

/-- The latch and its users (/repo/include/lib842/detail/latch.h 39-42) -/
structure FLatch (n m : Nat) where
  /-- the owner of `_mutex` -/
  owner : Option (Fin n ⊕ Fin m)
  value : Int
  cd : Fin n → CdPc
  wt : Fin m → LwPc
  /-- the assertion of latch.h 29 failed -/
  broken : Bool

/-- The constructor, latch.h 22-24 -/
def FLatch.init (n m : Nat) : FLatch n m :=
  { owner := none, value := n, cd := fun _ => .before, wt := fun _ => .before, broken := false }

/-- Effect of `notify_all` on a thread: asleep becomes woken up (/repo/include/lib842/detail/latch.h 31). -/
def LwPc.wake : LwPc → LwPc
  | .asleep => .woken
  | w => w

variable {n m : Nat}

/-- One access, in any order (/repo/include/lib842/detail/latch.h 27-37) -/
inductive FLatch.Step (l : FLatch n m) : FLatch n m → Prop
  | cdLock {c : Fin n} (h : l.cd c = .before) (ho : l.owner = none) :
      FLatch.Step l { l with owner := some (.inl c), cd := Function.update l.cd c .locked }
  | cdCount {c : Fin n} (h : l.cd c = .locked) :
      FLatch.Step l { l with value := l.value - 1, cd := Function.update l.cd c .counted, broken := l.broken || !decide (0 < l.value) }
  | cdNotify {c : Fin n} (h : l.cd c = .counted) :
      FLatch.Step l { l with cd := Function.update l.cd c .notified, wt := fun w => (l.wt w).wake }
  | cdUnlock {c : Fin n} (h : l.cd c = .notified) :
      FLatch.Step l { l with owner := none, cd := Function.update l.cd c .done }
  | wLock {w : Fin m} (h : l.wt w = .before ∨ l.wt w = .woken) (ho : l.owner = none) :
      FLatch.Step l { l with owner := some (.inr w), wt := Function.update l.wt w .locked }
  | wTrue {w : Fin m} (h : l.wt w = .locked) (hv : l.value = 0) :
      FLatch.Step l { l with wt := Function.update l.wt w .leaving }
  | wFalse {w : Fin m} (h : l.wt w = .locked) (hv : l.value ≠ 0) :
      FLatch.Step l { l with owner := none, wt := Function.update l.wt w .asleep }
  | wUnlock {w : Fin m} (h : l.wt w = .leaving) :
      FLatch.Step l { l with owner := none, wt := Function.update l.wt w .returned }
  | spurious {w : Fin m} (h : l.wt w = .asleep) :
      FLatch.Step l { l with wt := Function.update l.wt w .woken }

/-- All executions (of the threads that call /repo/include/lib842/detail/latch.h 27-37) -/
inductive FLatch.Reach : FLatch n m → Prop
  | init : FLatch.Reach (FLatch.init n m)
  | step {l l' : FLatch n m} : FLatch.Reach l → FLatch.Step l l' → FLatch.Reach l'

end Lib842
