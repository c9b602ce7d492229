import Verif.SpecStream
/-!
# Specification of the decompression stream: traces

What the user of a decompression stream does and what happens to the blocks.  The newest event is
first.  Blocks are named by numbers; the same name may be pushed several times.
-/

namespace Lib842.Spec

/-- What can be observed at a decompression stream. -/
inductive DEv
  /-- the user calls `start` -/
  | start
  /-- `push_block` returns `true` -/
  | push (b : Nat)
  /-- `push_block` returns `false` -/
  | refused (b : Nat)
  /-- the user calls `finalize` -/
  | finalize (cancel : Bool)
  /-- the user destroys the stream -/
  | destroy
  /-- the decompression of a block begins -/
  | begin (b : Nat)
  /-- it ends, successfully or not -/
  | ended (b : Nat) (ok : Bool)
  /-- the finalize callback is called -/
  | finalized (ok : Bool)
  deriving DecidableEq, Repr

/-- Is the event a call of `start`? -/
def DEv.isStart : DEv → Bool
  | .start => true
  | _ => false

/-- The events since the last `start`. -/
def dcurOp (tr : List DEv) : List DEv := tr.takeWhile fun e => !e.isStart

/-- Has there been a `start`? -/
def dstarted (tr : List DEv) : Bool := tr.any DEv.isStart

/-- The blocks accepted, begun, ended. -/
def pushes (tr : List DEv) : List Nat := tr.filterMap fun
  | .push b => some b
  | _ => none

/-- The blocks whose decompression has begun. -/
def begins (tr : List DEv) : List Nat := tr.filterMap fun
  | .begin b => some b
  | _ => none

/-- The blocks whose decompression has ended. -/
def ends (tr : List DEv) : List Nat := tr.filterMap fun
  | .ended b _ => some b
  | _ => none

/-- A new operation may be started: there is none, or its finalize callback has been called. -/
def dmayStart (tr : List DEv) : Prop := dstarted tr = false ∨ ∃ ok, .finalized ok ∈ dcurOp tr

/-- Blocks may be pushed and `finalize` may be called: between `start` and `finalize`. -/
def dmayPush (tr : List DEv) : Prop := dstarted tr = true ∧ ∀ c, .finalize c ∉ dcurOp tr

/-- When an event may follow the trace `tr`. -/
def DEvOk (tr : List DEv) : DEv → Prop
  | .refused _ => ∃ b, .ended b false ∈ dcurOp tr
  | .begin b => (∀ ok, .finalized ok ∉ dcurOp tr) ∧ (begins (dcurOp tr)).count b < (pushes (dcurOp tr)).count b
  | .ended b _ => (∀ ok, .finalized ok ∉ dcurOp tr) ∧ (ends (dcurOp tr)).count b < (begins (dcurOp tr)).count b
  | .finalized ok =>
    (∃ c, .finalize c ∈ dcurOp tr) ∧ (∀ ok, .finalized ok ∉ dcurOp tr) ∧
    (∀ b, (ends (dcurOp tr)).count b = (begins (dcurOp tr)).count b) ∧
    (ok = false ↔ ∃ b, .ended b false ∈ dcurOp tr) ∧
    (ok = true → .finalize true ∉ dcurOp tr →
      ∀ b, (begins (dcurOp tr)).count b = (pushes (dcurOp tr)).count b)
  | _ => True

/-- Every event of the trace was allowed when it happened. -/
def DTraceOk : List DEv → Prop
  | [] => True
  | e :: tr => DEvOk tr e ∧ DTraceOk tr

end Lib842.Spec
