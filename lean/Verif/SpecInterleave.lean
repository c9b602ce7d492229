import Verif.Model.OclInterleave
/-!
# Vocabulary for work items that run at the same time (C82)
-/

namespace Lib842
open Spec

/-- The bytes `[lo, lo + len)` of a buffer. -/
def Spec.memSlot (b : List Byte) (lo len : Nat) : List Byte := (b.drop lo).take len

/-- The next access of a computation: whether it is a store, the offset and the number of bytes. -/
def MemProg.next {α : Type} : MemProg α → Option (Bool × Nat × Nat)
  | .ret _ => none
  | .ub => none
  | .read i k _ => some (false, i, k)
  | .write i bs _ => some (true, i, bs.length)

/-- Data race: two work items are about to access the same byte, at least one of them writes. -/
def MemRace {α : Type} (s : MemSys α) : Prop :=
  ∃ t u w i k w' i' k', t ≠ u ∧ (s.th t).next = some (w, i, k) ∧ (s.th u).next = some (w', i', k') ∧ (w || w') = true ∧
    ∃ j, i ≤ j ∧ j < i + k ∧ i' ≤ j ∧ j < i' + k'

/-- Some work item does something undefined, or is about to access memory outside the buffer. -/
def MemFault {α : Type} (s : MemSys α) : Prop :=
  ∃ t, s.th t = .ub ∨ ∃ w i k, (s.th t).next = some (w, i, k) ∧ s.buf.length < i + k

/-- All work items have ended. -/
def MemDone {α : Type} (s : MemSys α) : Prop := ∀ t, ∃ a, s.th t = .ret a

end Lib842
