/-!
# Specification: data races

C++ ([intro.races]) leaves a program undefined in which two threads access the same variable, one
of them writing, without an order between them.  With mutexes and sequentially consistent atomics
only, it is enough to look at interleaved executions: there is such a pair exactly if in some
interleaving two threads are both about to make conflicting accesses.
-/

namespace Lib842.Spec

/-- An access to a variable that is not atomic; `locked`: while holding the mutex. -/
structure Access (V : Type) where
  var : V
  write : Bool
  locked : Bool
  deriving DecidableEq, Repr

/-- The same variable, one of the two writes, and the mutex does not separate them. -/
def Conflict {V : Type} (a b : Access V) : Prop :=
  a.var = b.var ∧ (a.write = true ∨ b.write = true) ∧ ¬ (a.locked = true ∧ b.locked = true)

/-- Two different agents are about to make conflicting accesses to `v`.  `acc x` are the accesses
that agent `x` can make next. -/
def RaceOn {A V : Type} (acc : A → Access V → Prop) (v : V) : Prop :=
  ∃ x y a b, x ≠ y ∧ acc x a ∧ acc y b ∧ a.var = v ∧ Conflict a b

end Lib842.Spec
