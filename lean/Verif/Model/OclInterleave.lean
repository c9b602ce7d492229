import Verif.Model.ClHost
/-!
# Work items that run at the same time

`/repo/src/ocl/decompress.cl` once more, as programs that access the output buffer step by step, so that
the accesses of several work items can be interleaved: every load and every store of the C text is one step.
The input buffer is read-only, unless the format is in-place; then reads of the input are steps, too.

`Verif.Props.OclInterleave` shows that a program that runs alone computes what the definitions of
`Verif.Model.Ocl` and `Verif.Model.OclKernel` compute.
-/

namespace Lib842
open Spec

/-- A computation of one work item on the output buffer (`__global` memory): it ends, does something
undefined, reads `k` bytes at offset `i`, or writes bytes at offset `i` (part of the model only, no counterpart in /repo) -/
inductive MemProg (α : Type) where
  | ret (a : α)
  | ub
  | read (i k : Nat) (f : List Byte → MemProg α)
  | write (i : Nat) (bs : List Byte) (f : MemProg α)

namespace MemProg

/-- One computation after the other (part of the model only, no counterpart in /repo). -/
def bind {α β : Type} : MemProg α → (α → MemProg β) → MemProg β
  | .ret a, f => f a
  | .ub, _ => .ub
  | .read i k g, f => .read i k fun bs => (g bs).bind f
  | .write i bs m, f => .write i bs (m.bind f)

/-- The computation alone on a buffer; `none`: undefined behaviour (part of the model only, no counterpart in /repo) -/
def run {α : Type} : MemProg α → List Byte → Option (α × List Byte)
  | .ret a, b => some (a, b)
  | .ub, _ => none
  | .read i k f, b =>
    match readBytes b i k with
    | none => none
    | some bs => (f bs).run b
  | .write i bs f, b =>
    match writeBytes b i bs with
    | none => none
    | some b => f.run b

/-- The computation with a pointer that is `o` bytes further (part of the model only, no counterpart in /repo; `my_out`, /repo/src/ocl/decompress.cl 404) -/
def shift {α : Type} (o : Nat) : MemProg α → MemProg α
  | .ret a => .ret a
  | .ub => .ub
  | .read i k f => .read (o + i) k fun bs => (f bs).shift o
  | .write i bs f => .write (o + i) bs (f.shift o)

end MemProg

/-- Computations with the local variables `OclP` (whose field `buf` is not used here) (part of the model only, no counterpart in /repo) -/
def OM (α : Type) := OclP → MemProg (Outcome OclP α)

namespace OM

/-- A computation without accesses (part of the model only, no counterpart in /repo). -/
def pure {α : Type} (a : α) : OM α := fun q => .ret (.ok a q)

/-- One computation after the other; an error ends both (part of the model only, no counterpart in /repo). -/
def bind {α β : Type} (x : OM α) (f : α → OM β) : OM β := fun q =>
  (x q).bind fun
    | .ok a q => f a q
    | .err e q => .ret (.err e q)
    | .ub => .ub
    | .timeout => .ret .timeout

instance : Monad OM where
  pure := pure
  bind := bind

/-- The local variables (part of the model only, no counterpart in /repo). -/
def get : OM OclP := fun q => .ret (.ok q q)
/-- Change the local variables (part of the model only, no counterpart in /repo). -/
def modify (f : OclP → OclP) : OM Unit := fun q => .ret (.ok () (f q))
/-- Return with an error code, /repo/src/ocl/decompress.cl 387 and the `return`s before it. -/
def fail {α : Type} (e : Errno) : OM α := fun q => .ret (.err e q)
/-- Exhausted fuel (part of the model only, no counterpart in /repo). -/
def timeout {α : Type} : OM α := fun _ => .ret .timeout
/-- a value that may be undefined (part of the model only, no counterpart in /repo) -/
def opt {α : Type} : Option α → OM α
  | none => fun _ => .ub
  | some a => pure a
/-- A load from the output buffer, as in /repo/src/ocl/decompress.cl 250, 352. -/
def load (i k : Nat) : OM (List Byte) := fun q => .read i k fun bs => .ret (.ok bs q)
/-- A store to the output buffer, as in /repo/src/ocl/decompress.cl 264, 352. -/
def store (i : Nat) (bs : List Byte) : OM Unit := fun q => .write i bs (.ret (.ok () q))

/-- The loop of /repo/src/ocl/decompress.cl 295-362. -/
def doWhile (body : OM Bool) : (fuel : Nat) → OM Unit
  | 0 => timeout
  | fuel + 1 => do
    let done ← body
    if done then pure () else doWhile body fuel

end OM

/-- `oclFetch`, decompress.cl 131, 282-287 -/
def oclFetchP (e : Endian) (k : Nat) : OM (BitVec 64) := do
  let p ← OM.get
  if (p.word + k) * 8 < p.ilen then
    match p.src with
    | some inp => OM.opt ((load64 e inp (8 * (p.ioff + p.word + k))).map (swapBe64 e))
    | none => do
      let bs ← OM.load (8 * (p.ioff + p.word + k)) 8
      OM.opt ((load64 e bs 0).map (swapBe64 e))
  else pure 0#64

/-- `oclShift`, decompress.cl 125-131 -/
def oclShiftP (e : Endian) : OM (BitVec 64) := do
  let w ← oclFetchP e 6
  let p ← OM.get
  match p.la with
  | [l0, l1, l2, l3, l4, l5] => do
    OM.modify fun p => { p with la := [l1, l2, l3, l4, l5, w] }
    pure l0
  | _ => OM.opt none

/-- `read_bits`, decompress.cl 113-147 -/
def oclReadBitsP (e : Endian) (n : Nat) : OM (BitVec 64) := do
  let p ← OM.get
  if p.bits < n then
    if (p.word + 1) * 8 > p.ilen then OM.fail .EINVAL
    else do
      let w ← oclShiftP e
      OM.modify fun p => { p with word := p.word + 1 }
      let r ← OM.opt (winMiss p.buffer p.bits n w)
      OM.modify fun p => { p with buffer := r.2.1, bits := r.2.2 }
      pure r.1
  else do
    let r ← OM.opt (winHit p.buffer p.bits n)
    OM.modify fun p => { p with buffer := r.2.1, bits := r.2.2 }
    pure r.1

/-- `get_index`, decompress.cl 149-191 -/
def oclGetIndexP (size index fsize : Nat) : OM Nat := do
  let p ← OM.get
  let total := p.out * 8
  let offset := indexOffset index size fsize total
  if offset + size > total then OM.fail .EINVAL
  else pure offset

/-- The referenced bytes, decompress.cl 247-252: two loads of 16 bits -/
def oclRefP (e : Endian) (dst offset : Nat) : OM (BitVec 64) := do
  let a ← OM.load (2 * (offset >>> 1)) 2
  let a ← OM.opt (load16 e a 0)
  let b ← OM.load (2 * (offset >>> 1 + 1)) 2
  let b ← OM.opt (load16 e b 0)
  let v := oclShl ((swapBe16 e a).setWidth 64) 48 ||| oclShl ((swapBe16 e b).setWidth 64) 32
  pure (oclShr v (64 - (dst <<< 3 : Nat)))

/-- One iteration of the loop in `do_op`, decompress.cl 225-256 -/
def oclFieldP (e : Endian) (params : BitVec 64) (isIndex dst numBits : Nat)
    (l : Nat × BitVec 64 × Nat) : OM (Nat × BitVec 64 × Nat) := do
  let value := oclValue params l.1 numBits
  let value ← if isIndex ≠ 0 then do
      let offset ← oclGetIndexP dst value.toNat (oclFifoSize dst)
      oclRefP e dst offset
    else pure value
  pure (l.1 - numBits, l.2.1 ||| oclShl value (64 - (dst <<< 3 : Nat) - l.2.2), l.2.2 + dst <<< 3)

/-- The loop in `do_op`, decompress.cl 215-257 -/
def oclFieldsP (e : Endian) (params : BitVec 64) :
    List (Nat × Nat × Nat) → Nat × BitVec 64 × Nat → OM (Nat × BitVec 64 × Nat)
  | [], l => pure l
  | f :: fs, l => do
    let l ← oclFieldP e params f.1 f.2.1 f.2.2 l
    oclFieldsP e params fs l

/-- `*p->out++ = bs`: one store of 64 bits -/
def oclPutP (bs : List Byte) : OM Unit := do
  let p ← OM.get
  OM.store (8 * p.out) bs
  OM.modify fun p => { p with out := p.out + 1 }

/-- `if ((p->out - p->ostart) * sizeof(uint64_t) + 8 * k > p->olen) return -ENOSPC` -/
def oclRoomP (k : Nat) : OM Unit := do
  let p ← OM.get
  if p.out * 8 + k * 8 > p.olen then OM.fail .ENOSPC else pure ()

/-- `do_op`, decompress.cl 193-265 -/
def oclDoOpP (e : Endian) (op : Nat) : OM Unit := do
  if op ≥ 26 then OM.fail .EINVAL
  else do
    let params ← oclReadBitsP e (oclOpbits op)
    let l ← oclFieldsP e params (oclRow op) (oclOpbits op, 0#64, 0)
    oclRoomP 1
    oclPutP (wordBytes64 e (swapBe64 e l.2.1))

/-- `while (op-- > 0) { *p.out = *(p.out - 1); p.out++; }`, decompress.cl 320-323 -/
def oclRepeatP : Nat → OM Unit
  | 0 => pure ()
  | k + 1 => do
    let p ← OM.get
    let bs ← if p.out = 0 then OM.opt none else OM.load (8 * (p.out - 1)) 8
    oclPutP bs
    oclRepeatP k

/-- One iteration of the main loop, decompress.cl 296-362 -/
def oclIterP (e : Endian) : OM Bool := do
  let op ← oclReadBitsP e 5
  if op.toNat = 0x1B then do
    let rep ← oclReadBitsP e 6
    let p ← OM.get
    if p.out = 0 then OM.fail .EINVAL
    else do
      oclRoomP (rep.toNat + 1)
      oclRepeatP (rep.toNat + 1)
      pure false
  else if op.toNat = 0x1C then do
    oclRoomP 1
    oclPutP (List.replicate 8 0#8)
    pure false
  else if op.toNat = 0x1E then pure true
  else if op.toNat = 26 - 1 then do
    let value ← oclReadBitsP e 8
    let offset ← oclGetIndexP 8 value.toNat (8 * 2 ^ 8)
    oclRoomP 1
    let bs ← OM.load (8 * (offset >>> 3)) 8
    oclPutP bs
    pure false
  else do
    oclDoOpP e op.toNat
    pure false

/-- Initialisation of the look-ahead buffer, decompress.cl 282-287 -/
def oclInitP (e : Endian) : OM Unit := do
  let a ← oclFetchP e 0
  let b ← oclFetchP e 1
  let c ← oclFetchP e 2
  let d ← oclFetchP e 3
  let f ← oclFetchP e 4
  let g ← oclFetchP e 5
  OM.modify fun p => { p with la := [a, b, c, d, f, g] }

/-- `decompress_core`, decompress.cl 267-388: the error code and the value stored to `*olen`; `none`: the fuel of
the model has run out. -/
def oclCoreP (e : Endian) (src : Option (List Byte)) (ioff ilen olen : Nat) : MemProg (Option (Option Errno × Nat)) :=
  let body : OM Nat := do
    oclInitP e
    OM.doWhile (oclIterP e) (8 * ilen + 1)
    let _crc ← oclReadBitsP e 32
    let p ← OM.get
    pure (p.out * 8)
  (body (oclStart src ioff ilen [] olen)).bind fun
    | .ok n _ => .ret (some (none, n))
    | .err er _ => .ret (some (some er, 0))
    | .ub => .ub
    | .timeout => .ret none

/-- `my_in[k]`: a load from the input buffer, or, in place, from the output buffer (/repo/src/ocl/decompress.cl 410, 411, 415, 425, 435, 437) -/
def loadWordP (e : Endian) (src : Option (List Byte)) (k : Nat) : MemProg (BitVec 64) :=
  match src with
  | some inp =>
    match load64 e inp (8 * k) with
    | some v => .ret v
    | none => .ub
  | none => .read (8 * k) 8 fun bs =>
    match load64 e bs 0 with
    | some v => .ret v
    | none => .ub

/-- `notMarked`, decompress.cl 410-411 -/
def notMarkedP (e : Endian) (src : Option (List Byte)) : MemProg Bool :=
  (loadWordP e src 0).bind fun a =>
    match load64 e chunkMarker 0, load64 e chunkMarker 8 with
    | some m0, some m1 =>
      if a ≠ m0 then .ret true
      else (loadWordP e src 1).bind fun b => .ret (decide (b ≠ m1))
    | _, _ => .ub

/-- `for (size_t i = 0; i < n; i++) my_out[i] = my_in[i];`, decompress.cl 414-416; `i` counts up, `k` iterations
are left -/
def copyWordsP (inp : List Byte) : (i k : Nat) → MemProg Unit
  | _, 0 => .ret ()
  | i, k + 1 =>
    match readBytes inp (8 * i) 8 with
    | none => .ub
    | some bs => .write (8 * i) bs (copyWordsP inp (i + 1) k)

/-- One work item, decompress.cl 407-446 (see `oclItem`): the error code and the length, which are then stored in the
elements of the two arrays that belong to the chunk. -/
def oclItemP (e : Endian) (fmt : ClFormat) (chunkSize : Nat) (inp : List Byte) (ilen olen : Option Nat) :
    MemProg (Option (Option Errno × Nat)) :=
  match fmt with
  | .always => oclCoreP e (some inp) 0 (ilen.getD (2 ^ 64 - 1)) (olen.getD (2 ^ 64 - 1))
  | _ =>
    let src := if fmt = .maybe then some inp else none
    (notMarkedP e src).bind fun raw =>
      if raw then
        if fmt = .maybe then (copyWordsP inp 0 (chunkSize / 8)).bind fun _ => .ret (some (none, chunkSize))
        else .ret (some (none, chunkSize))
      else
        (loadWordP e src 2).bind fun n =>
          if n = 0#64 then .ret (some (none, chunkSize))
          else oclCoreP e src ((BitVec.ofNat 64 chunkSize - n).toNat / 8) n.toNat (olen.getD (2 ^ 64 - 1))

/-- The chunk of a work item, decompress.cl 401-402 -/
def itemChunk (shuffle : Option (List Nat)) (gid : Nat) : Option Nat :=
  match shuffle with
  | none => some gid
  | some m => m[gid]?

/-- A work item of a launch, decompress.cl 397-446: what it stores in `olen` and `returnValues` at its end, and for
which chunk (`none`: nothing). -/
def oclWorkItemP (e : Endian) (fmt : ClFormat) (chunkSize stride inOff outOff : Nat) (inp : List Byte)
    (ilens olens : Option (List Nat)) (numChunks : Nat) (shuffle : Option (List Nat)) (gid : Nat) :
    MemProg (Option (Nat × Option (Option Errno × Nat))) :=
  if gid ≥ numChunks then .ret none
  else
    match itemChunk shuffle gid with
    | none => .ub
    | some i =>
      let io := 8 * (inOff / 8 + stride / 8 * i)
      let oo := 8 * (outOff / 8 + chunkSize / 8 * i)
      if (fmt ≠ .inplace ∧ inp.length < io) ∨ (fmt = .inplace ∧ io ≠ oo) then .ub
      else match optAt ilens i, optAt olens i with
        | some il, some ol =>
          ((oclItemP e fmt chunkSize (inp.drop io) il ol).bind fun r => .ret (some (i, r))).shift oo
        | _, _ => .ub

/-! ## Interleaving -/

/-- The output buffer and what is left to do for each work item (launch of /repo/src/ocl/decompress.cl 390-446) -/
structure MemSys (α : Type) where
  buf : List Byte
  th : Nat → MemProg α

/-- Replace what is left to do for one work item (part of the model only, no counterpart in /repo). -/
def MemSys.setTh {α : Type} (s : MemSys α) (t : Nat) (m : MemProg α) : MemSys α :=
  { s with th := fun u => if u = t then m else s.th u }

/-- One access of one work item (/repo/src/ocl/decompress.cl 390-446) -/
inductive MemStep {α : Type} : MemSys α → MemSys α → Prop
  | read {s : MemSys α} {t i k : Nat} {f : List Byte → MemProg α} {bs : List Byte} : s.th t = .read i k f →
      readBytes s.buf i k = some bs → MemStep s (s.setTh t (f bs))
  | write {s : MemSys α} {t i : Nat} {bs : List Byte} {m : MemProg α} {b : List Byte} : s.th t = .write i bs m →
      writeBytes s.buf i bs = some b → MemStep s ({ s with buf := b }.setTh t m)

/-- The states that occur, whatever the order of the accesses (/repo/src/ocl/decompress.cl 390-446) -/
inductive MemReach {α : Type} (s₀ : MemSys α) : MemSys α → Prop
  | init : MemReach s₀ s₀
  | step {s s' : MemSys α} : MemReach s₀ s → MemStep s s' → MemReach s₀ s'

/-- A launch: all work items at their start (/repo/src/ocl/decompress.cl 390-446) -/
def oclSys (e : Endian) (fmt : ClFormat) (chunkSize stride inOff outOff : Nat) (inp : List Byte)
    (ilens olens : Option (List Nat)) (numChunks : Nat) (shuffle : Option (List Nat)) (buf : List Byte) :
    MemSys (Option (Nat × Option (Option Errno × Nat))) :=
  ⟨buf, oclWorkItemP e fmt chunkSize stride inOff outOff inp ilens olens numChunks shuffle⟩

end Lib842
