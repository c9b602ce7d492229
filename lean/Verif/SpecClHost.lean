import Verif.Spec
import Verif.Model.ClHost
/-!
# Vocabulary for the host side of the OpenCL decompressor (C80, C81)
-/

namespace Lib842

/-- The slot of chunk `i` in a buffer of chunks of `c` bytes that begin at byte `base`. -/
def Spec.chunkSlot (b : List Byte) (c base i : Nat) : List Byte := (b.drop (base + c * i)).take c

/-- What has become of one chunk, given only its own stream and the capacity announced for it: nothing after the
capacity is touched; a hardware stream whose data fit is restored and reported as such; success is reported only if
ops and the end marker are there and the data are what the ops denote; a failure is reported with length 0. -/
structure Spec.ChunkDone (stream old new : List Byte) (cap len : Nat) (rc : Option Errno) : Prop where
  within : len ≤ cap
  length : new.length = old.length
  frame : new.drop cap = old.drop cap
  valid : ∀ d, Spec.HwDecodes stream d → d.length ≤ cap → rc = none ∧ len = d.length ∧ new = d ++ old.drop d.length
  sound : rc = none → new.drop len = old.drop len ∧ ∃ ops crc rest, Spec.Expands ops (new.take len) ∧
    (∀ op ∈ ops, op.isShort = false) ∧
    Spec.bytesBits stream = ops.flatMap Spec.Op.bits ++ (Spec.bitsOf 5 0x1e ++ (Spec.bitsOf 32 crc ++ rest))
  failed : ∀ e, rc = some e → len = 0 ∧ (e = .EINVAL ∨ e = .ENOSPC)

/-- The platform has an available device of type `t` (as far as the queries tell). -/
def ClPlatform.has (p : ClPlatform) (t : ClDevType) : Prop :=
  ∃ l d, p.devices t = .ok l ∧ d ∈ l ∧ d.available = .ok true

/-- The queries of type `t` of the platform do not fail, except that there may be no device. -/
def ClPlatform.answers (p : ClPlatform) (t : ClDevType) : Prop :=
  p.devices t = .error (-1) ∨ ∃ l, p.devices t = .ok l ∧ ∀ d ∈ l, ∃ b, d.available = .ok b

end Lib842
