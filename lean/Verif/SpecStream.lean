/-!
# Specification of the streams: traces

A trace lists what the user of a stream can observe: the calls made and the callbacks received.
The newest event is first.  Independent of the code model.
-/

namespace Lib842.Spec

/-- `BLOCK_SIZE`: 1 MiB -/
def blockSize : Nat := 2 ^ 20

/-- What can be observed at a compression stream. -/
inductive Ev
  /-- the user calls `start` for `size` bytes -/
  | start (size : Nat)
  /-- the user calls `finalize` -/
  | finalize (cancel : Bool)
  /-- the user destroys the stream -/
  | destroy
  /-- the block callback is called with the block at offset `o` -/
  | block (o : Nat)
  /-- the block callback is called with an error block, for the block at offset `o` -/
  | failBlock (o : Nat)
  /-- the block callback for offset `o` has returned -/
  | returned (o : Nat)
  /-- the finalize callback is called -/
  | finalized (ok : Bool)
  deriving DecidableEq, Repr

/-- Is the event a call of `start`? -/
def Ev.isStart : Ev → Bool
  | .start _ => true
  | _ => false

/-- The events since the last `start`. -/
def curOp (tr : List Ev) : List Ev := tr.takeWhile fun e => !e.isStart

/-- Has there been a `start`? -/
def started (tr : List Ev) : Bool := tr.any Ev.isStart

/-- The size given to the last `start`. -/
def opSize : List Ev → Nat
  | [] => 0
  | .start n :: _ => n
  | _ :: tr => opSize tr

/-- Offsets for which the block callback has been called. -/
def offsets (tr : List Ev) : List Nat := tr.filterMap fun
  | .block o => some o
  | .failBlock o => some o
  | _ => none

/-- A new operation may be started: there is none, or its finalize callback has been called. -/
def mayStart (tr : List Ev) : Prop := started tr = false ∨ ∃ ok, .finalized ok ∈ curOp tr

/-- `finalize` may be called: once for every `start`. -/
def mayFinalize (tr : List Ev) : Prop := started tr = true ∧ ∀ c, .finalize c ∉ curOp tr

/-- The epoch of an offset: without epochs all blocks are in the same one. -/
def epochOf (k : Option Nat) (o : Nat) : Nat :=
  match k with
  | none => 0
  | some k => o / 2 ^ k

/-- When an event may follow the trace `tr`. -/
def EvOk (k : Option Nat) (tr : List Ev) : Ev → Prop
  | .block o | .failBlock o =>
    -- within the operation, a whole block of the input, not yet handed out, and all blocks of
    -- earlier epochs have been handed out and their callbacks have returned
    (∀ ok, .finalized ok ∉ curOp tr) ∧ o % blockSize = 0 ∧ o + blockSize ≤ opSize tr ∧
    o ∉ offsets (curOp tr) ∧
    ∀ o', o' % blockSize = 0 → epochOf k o' < epochOf k o →
      o' ∈ offsets (curOp tr) ∧ .returned o' ∈ curOp tr
  | .returned o => o ∈ offsets (curOp tr) ∧ ∀ ok, .finalized ok ∉ curOp tr
  | .finalized ok =>
    -- after `finalize`, once, when all callbacks have returned; `ok` unless a block failed; all
    -- blocks have been handed out unless the operation was cancelled or failed
    (∃ c, .finalize c ∈ curOp tr) ∧ (∀ ok, .finalized ok ∉ curOp tr) ∧
    (∀ o ∈ offsets (curOp tr), .returned o ∈ curOp tr) ∧
    (ok = false ↔ ∃ o, .failBlock o ∈ curOp tr) ∧
    (ok = true → .finalize true ∉ curOp tr →
      ∀ o, o % blockSize = 0 → o + blockSize ≤ opSize tr → o ∈ offsets (curOp tr))
  | _ => True

/-- Every event of the trace was allowed when it happened. -/
def TraceOk (k : Option Nat) : List Ev → Prop
  | [] => True
  | e :: tr => EvOk k tr e ∧ TraceOk k tr

/-- A setting of the epoch: none, or a power of two that is a multiple of the block size. -/
def EpochOk (E : Nat) : Prop := E = 0 ∨ ∃ j, 20 ≤ j ∧ j < 64 ∧ E = 2 ^ j

/-- `P` comes true whatever steps are taken, as long as steps are taken. -/
inductive Inevitable {α : Type} (R : α → α → Prop) (P : α → Prop) : α → Prop
  | now {a : α} : P a → Inevitable R P a
  | later {a : α} : (∃ b, R a b) → (∀ b, R a b → Inevitable R P b) → Inevitable R P a

end Lib842.Spec
