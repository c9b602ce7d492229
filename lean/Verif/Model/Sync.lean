import Mathlib.Logic.Function.Basic
/-!
# Barrier and latch

`include/lib842/detail/barrier.h` and `include/lib842/detail/latch.h`.

The body of every member function is one critical section of the object's mutex, split only at
the condition variable: a thread in `wait` gives up the mutex and is *asleep*; `notify_all` (or a
spurious wakeup) makes it *awake*, and an awake thread takes the mutex again and evaluates the
predicate, to return or to fall asleep again.  So a notification that the code forgets is lost in
the model too.
-/

namespace Lib842

/-- Where a thread is in `arrive_and_wait`, with its `current_generation` (/repo/include/lib842/detail/barrier.h 29-41) -/
inductive BWait
  | out
  | asleep (g : BitVec 32)
  | awake (g : BitVec 32)
  deriving DecidableEq, Repr

/-- `barrier`, barrier.h 52-57, with the threads inside it.  `_generation` is an `unsigned int`
and wraps. -/
structure Bar (N : Nat) where
  count : Nat
  gen : BitVec 32
  intr : Bool
  wt : Fin N → BWait

/-- The constructor, barrier.h 21-26 -/
def Bar.init (N : Nat) : Bar N := { count := 0, gen := 0, intr := false, wt := fun _ => .out }

/-- Effect of a wakeup on one thread (/repo/include/lib842/detail/barrier.h 34, 48) -/
def BWait.wake : BWait → BWait
  | .asleep g => .awake g
  | w => w

/-- `_cv.notify_all()` (/repo/include/lib842/detail/barrier.h 34, 48) -/
def Bar.notifyAll {N : Nat} (b : Bar N) : Bar N := { b with wt := fun t => (b.wt t).wake }

/-- The predicate of the wait, barrier.h 37-39 -/
def Bar.pred {N : Nat} (b : Bar N) (g : BitVec 32) : Bool := b.gen != g || b.intr

/-- `arrive_and_wait` up to the point where the thread returns or sleeps, barrier.h 29-41 -/
def Bar.arrive {N : Nat} (b : Bar N) (t : Fin N) : Bar N :=
  if b.count + 1 = N then
    ({ b with count := 0, gen := b.gen + 1 } : Bar N).notifyAll
  else if Bar.pred b b.gen then { b with count := b.count + 1 }
  else { b with count := b.count + 1, wt := Function.update b.wt t (.asleep b.gen) }

/-- An awake thread evaluates the predicate, barrier.h 37-39 -/
def Bar.recheck {N : Nat} (b : Bar N) (t : Fin N) (g : BitVec 32) : Bar N :=
  if b.pred g then { b with wt := Function.update b.wt t .out }
  else { b with wt := Function.update b.wt t (.asleep g) }

/-- A wakeup without a notification, which condition variables may produce (the wait of /repo/include/lib842/detail/barrier.h 37) -/
def Bar.spurious {N : Nat} (b : Bar N) (t : Fin N) : Bar N :=
  { b with wt := Function.update b.wt t (b.wt t).wake }

/-- `interrupt`, barrier.h 45-49 -/
def Bar.interrupt {N : Nat} (b : Bar N) : Bar N := ({ b with intr := true } : Bar N).notifyAll

/-- A barrier and its `N` users; `arr t` counts the calls of thread `t`, `ret t` its returns (users of /repo/include/lib842/detail/barrier.h 29-49) -/
structure BarSys (N : Nat) where
  bar : Bar N
  arr : Fin N → Nat
  ret : Fin N → Nat

/-- /repo/include/lib842/detail/barrier.h 21-26, before any call. -/
def BarSys.init (N : Nat) : BarSys N := { bar := Bar.init N, arr := fun _ => 0, ret := fun _ => 0 }

/-- Count a return if the thread is out (part of the model only, no counterpart in /repo) -/
def BarSys.settle {N : Nat} (s : BarSys N) (t : Fin N) : BarSys N :=
  if s.bar.wt t = .out then { s with ret := Function.update s.ret t (s.ret t + 1) } else s

/-- The steps of the threads, in any order (/repo/include/lib842/detail/barrier.h 29-49) -/
inductive BarSys.Step {N : Nat} : BarSys N → BarSys N → Prop
  | arrive {s : BarSys N} {t : Fin N} (h : s.bar.wt t = .out) :
      BarSys.Step s
        (BarSys.settle { s with bar := s.bar.arrive t, arr := Function.update s.arr t (s.arr t + 1) } t)
  | recheck {s : BarSys N} {t : Fin N} {g : BitVec 32} (h : s.bar.wt t = .awake g) :
      BarSys.Step s (BarSys.settle { s with bar := s.bar.recheck t g } t)
  | spurious {s : BarSys N} {t : Fin N} {g : BitVec 32} (h : s.bar.wt t = .asleep g) :
      BarSys.Step s { s with bar := s.bar.spurious t }
  | interrupt {s : BarSys N} : BarSys.Step s { s with bar := s.bar.interrupt }

/-- All executions of /repo/include/lib842/detail/barrier.h 29-49. -/
inductive BarSys.Reach {N : Nat} : BarSys N → Prop
  | init : BarSys.Reach (BarSys.init N)
  | step {s s' : BarSys N} : BarSys.Reach s → BarSys.Step s s' → BarSys.Reach s'

/-! ## Latch -/

/-- A thread that calls `wait` (/repo/include/lib842/detail/latch.h 34-37) -/
inductive LWait
  | before
  | check
  | asleep
  | returned
  deriving DecidableEq, Repr

/-- Effect of `notify_all` on a thread: /repo/include/lib842/detail/latch.h 31. -/
def LWait.wake : LWait → LWait
  | .asleep => .check
  | w => w

/-- `latch`, latch.h 40-42, its waiting threads (any number) and the number of `count_down` calls
made.  `broken`: the assertion of latch.h 29 failed. -/
structure Latch where
  value : Int
  wt : Nat → LWait
  calls : Nat
  broken : Bool

/-- The constructor, latch.h 22-24 -/
def Latch.init (n : Nat) : Latch := { value := n, wt := fun _ => .before, calls := 0, broken := false }

/-- `count_down`, latch.h 27-32 -/
def Latch.countDown (l : Latch) : Latch :=
  { value := l.value - 1, wt := fun w => (l.wt w).wake, calls := l.calls + 1,
    broken := l.broken || !decide (0 < l.value) }

/-- `wait`, latch.h 34-37: evaluate the predicate, return or sleep. -/
def Latch.check (l : Latch) (w : Nat) : Latch :=
  if l.value = 0 then { l with wt := Function.update l.wt w .returned }
  else { l with wt := Function.update l.wt w .asleep }

/-- Steps: `n` calls of `count_down` in all, any number of waiting threads (/repo/include/lib842/detail/latch.h 27-37) -/
inductive Latch.Step (n : Nat) : Latch → Latch → Prop
  | countDown {l : Latch} (h : l.calls < n) : Latch.Step n l l.countDown
  | wait {l : Latch} {w : Nat} (h : l.wt w = .before) :
      Latch.Step n l { l with wt := Function.update l.wt w .check }
  | check {l : Latch} {w : Nat} (h : l.wt w = .check) : Latch.Step n l (l.check w)
  | spurious {l : Latch} {w : Nat} (h : l.wt w = .asleep) :
      Latch.Step n l { l with wt := Function.update l.wt w .check }

/-- All executions of /repo/include/lib842/detail/latch.h 27-37. -/
inductive Latch.Reach (n : Nat) : Latch → Prop
  | init : Latch.Reach n (Latch.init n)
  | step {l l' : Latch} : Latch.Reach n l → Latch.Step n l l' → Latch.Reach n l'

end Lib842
