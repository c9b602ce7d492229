import Verif.SpecDStream
/-!
# Specification: the output buffer of a decompression stream

Several threads decompress blocks into the same buffer.  From the `begin` of a block to its end
the bytes of its region are written by its thread in any order, so nothing is known about them.
A block is named by its offset in the buffer.
-/

namespace Lib842.Spec

/-- The blocks the user tried to push, accepted or not. -/
def attempts (tr : List DEv) : List Nat := tr.filterMap fun
  | .push b => some b
  | .refused b => some b
  | _ => none

/-- The decompression of the block `b` has begun and not ended. -/
def running (tr : List DEv) (b : Nat) : Prop := (ends tr).count b < (begins tr).count b

/-- Position `i` of the buffer belongs to the block at offset `b`. -/
def inRegion (b i : Nat) : Prop := b ≤ i ∧ i < b + blockSize

/-- What the running blocks may do to the buffer: anything within their regions. -/
def Flux {α : Type} (tr : List DEv) (m m' : List α) : Prop :=
  m'.length = m.length ∧ ∀ i, (∀ b, running tr b → ¬ inRegion b i) → m'[i]? = m[i]?

/-- The contents of the buffer after the trace `tr` of one operation (newest event first), if they
were `out0` at the beginning.  `handle b m ok m'`: the decompression of the block `b` turns the
buffer `m` into `m'`, with result `ok`. -/
inductive MemRun {α : Type} (handle : Nat → List α → Bool → List α → Prop) (out0 : List α) :
    List DEv → List α → Prop
  | nil : MemRun handle out0 [] out0
  | other {tr : List DEv} {m m' : List α} {e : DEv} : MemRun handle out0 tr m → (∀ b ok, e ≠ .ended b ok) →
      Flux (e :: tr) m m' → MemRun handle out0 (e :: tr) m'
  | ended {tr : List DEv} {m m' m'' : List α} {b : Nat} {ok : Bool} : MemRun handle out0 tr m →
      handle b m ok m' → Flux (.ended b ok :: tr) m' m'' → MemRun handle out0 (.ended b ok :: tr) m''

end Lib842.Spec
