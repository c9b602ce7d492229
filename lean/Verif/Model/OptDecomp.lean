import Verif.Model.BitWindow
import Verif.Model.SwDecomp
/-!
# Optimized decompressor (`/repo/src/serial_optimized/842_decompress.cpp`)

Modelled in the configuration the repository builds: `ENABLE_ERROR_HANDLING` defined,
`BRANCH_FREE` 0 and `DISABLE_CRC` not defined
(`/repo/src/serial_optimized/842-internal.h`; the branch-free functions are in
`Model/Templates`).  Messages printed to `stderr` are omitted.
-/

namespace Lib842

/-- `struct sw842_param_decomp`, 842_decompress.cpp 30-42: `word` is
`p->in - p->istart`, `out` is `p->out - p->ostart`; `errorcode` is `none` for 0. -/
structure ODecomp where
  inp : List Byte
  word : Nat
  ilen : Nat
  buf : List Byte
  out : Nat
  olen : Nat
  errorcode : Option Errno
  bits : Nat
  buffer : BitVec 64
  deriving DecidableEq, Repr

/-- `if (p->errorcode == 0) p->errorcode = -er;` -/
def ODecomp.setError (er : Errno) (p : ODecomp) : ODecomp :=
  match p.errorcode with
  | none => { p with errorcode := some er }
  | some _ => p

/-- `read_word`, 842_decompress.cpp 56-67 -/
def readWord (e : Endian) : M ODecomp (BitVec 64) := do
  let p ← M.get
  if (p.word + 1) * 8 > p.ilen then do
    M.modify (ODecomp.setError .EINVAL)
    pure 0#64
  else do
    let w ← M.access fun p => load64 e p.inp (8 * p.word)
    M.modify fun p => { p with word := p.word + 1 }
    pure (swapBe64 e w)

/-- `read_bits`, 842_decompress.cpp 70-86 -/
def readBits (e : Endian) (n : Nat) : M ODecomp (BitVec 64) := do
  let p ← M.get
  if p.bits < n then do
    let w ← readWord e
    let r ← M.access fun _ => winMiss p.buffer p.bits n w
    M.modify fun p => { p with buffer := r.2.1, bits := r.2.2 }
    pure r.1
  else do
    let r ← M.access fun p => winHit p.buffer p.bits n
    M.modify fun p => { p with buffer := r.2.1, bits := r.2.2 }
    pure r.1

/-- Write `bs` at `p->out` and advance (/repo/src/serial_optimized/842_decompress.cpp 94-104, 141-142) -/
def oemit (bs : List Byte) : M ODecomp Unit := do
  M.update fun p => (writeBytes p.buf p.out bs).map fun b => { p with buf := b }
  M.modify fun p => { p with out := p.out + bs.length }

/-- `do_data<N>`, 842_decompress.cpp 89-105.  The argument is truncated to `N` bytes
by the parameter types of `swap_be_to_native16/32`. -/
def odoData (e : Endian) (n : Nat) (data : BitVec 64) : M ODecomp Unit :=
  if n = 2 then oemit (wordBytes16 e (swapBe16 e (data.setWidth 16)))
  else if n = 4 then oemit (wordBytes32 e (swapBe32 e (data.setWidth 32)))
  else if n = 8 then oemit (wordBytes64 e (swapBe64 e data))
  else M.modify fun p => { p with out := p.out + n }

/-- `do_index`, 842_decompress.cpp 107-143; the offset computation (lines 110-128) is
the same as in `__do_index` of the serial version. -/
def odoIndex (size index fsize : Nat) : M ODecomp Unit := do
  let p ← M.get
  let total := roundDown p.out 8
  let offset := indexOffset index size fsize total
  if offset + size > total then M.modify (ODecomp.setError .EINVAL)
  else do
    let bs ← M.access fun p => readBytes p.buf offset size
    oemit bs

/-- One statement of a `case` of the template switch:
`do_data<n>(&p, (rep >> shift) & ((1ULL << width) - 1))` or
`do_index(&p, n, (rep >> shift) & ((1ULL << width) - 1), fsize)`. -/
inductive OptStep where
  | data (n shift width : Nat)
  | index (n shift width fsize : Nat)
  deriving DecidableEq, Repr

open OptStep in
/-- The cases 0x00 to 0x19 of the switch, 842_decompress.cpp 325-481: number of bits
read into `rep`, then the statements in order.  (`I2_BITS` 8, `I4_BITS` 9, `I8_BITS` 8:
`/repo/src/common/842.h` 90-92; FIFO sizes 512, 2048, 2048: lines 45-47.  Case 0x00
passes `rep` itself, written as shift 0 and width 64.) -/
def optSwitch : List (Nat × List OptStep) := [
  (64, [data 8 0 64]),
  (32 + 16 + 8, [data 4 24 32, data 2 8 16, index 2 0 8 512]),
  (32 + 8 + 16, [data 4 24 32, index 2 16 8 512, data 2 0 16]),
  (32 + 8 + 8, [data 4 16 32, index 2 8 8 512, index 2 0 8 512]),
  (32 + 9, [data 4 9 32, index 4 0 9 2048]),
  (16 + 8 + 32, [data 2 40 16, index 2 32 8 512, data 4 0 32]),
  (16 + 8 + 16 + 8, [data 2 32 16, index 2 24 8 512, data 2 8 16, index 2 0 8 512]),
  (16 + 8 + 8 + 16, [data 2 32 16, index 2 24 8 512, index 2 16 8 512, data 2 0 16]),
  (16 + 8 + 8 + 8, [data 2 24 16, index 2 16 8 512, index 2 8 8 512, index 2 0 8 512]),
  (16 + 8 + 9, [data 2 17 16, index 2 9 8 512, index 4 0 9 2048]),
  (8 + 16 + 32, [index 2 48 8 512, data 2 32 16, data 4 0 32]),
  (8 + 32 + 8, [index 2 40 8 512, data 4 8 32, index 2 0 8 512]),
  (8 + 16 + 8 + 16, [index 2 40 8 512, data 2 24 16, index 2 16 8 512, data 2 0 16]),
  (8 + 16 + 8 + 8, [index 2 32 8 512, data 2 16 16, index 2 8 8 512, index 2 0 8 512]),
  (8 + 16 + 9, [index 2 25 8 512, data 2 9 16, index 4 0 9 2048]),
  (8 + 8 + 32, [index 2 40 8 512, index 2 32 8 512, data 4 0 32]),
  (8 + 8 + 16 + 8, [index 2 32 8 512, index 2 24 8 512, data 2 8 16, index 2 0 8 512]),
  (8 + 8 + 8 + 16, [index 2 32 8 512, index 2 24 8 512, index 2 16 8 512, data 2 0 16]),
  (8 + 8 + 8 + 8, [index 2 24 8 512, index 2 16 8 512, index 2 8 8 512, index 2 0 8 512]),
  (8 + 8 + 9, [index 2 17 8 512, index 2 9 8 512, index 4 0 9 2048]),
  (9 + 32, [index 4 32 9 2048, data 4 0 32]),
  (9 + 16 + 8, [index 4 24 9 2048, data 2 8 16, index 2 0 8 512]),
  (9 + 8 + 16, [index 4 24 9 2048, index 2 16 8 512, data 2 0 16]),
  (9 + 8 + 8, [index 4 16 9 2048, index 2 8 8 512, index 2 0 8 512]),
  (9 + 9, [index 4 9 9 2048, index 4 0 9 2048]),
  (8, [index 8 0 8 2048])]

/-- `(rep >> shift) & ((1ULL << width) - 1)` -/
def field (rep : BitVec 64) (shift width : Nat) : Option (BitVec 64) :=
  (cshr rep shift).map fun v => v &&& BitVec.ofNat 64 (2 ^ width - 1)

/-- Execute one statement of a case (/repo/src/serial_optimized/842_decompress.cpp 325-483) -/
def optStep (e : Endian) (rep : BitVec 64) : OptStep → M ODecomp Unit
  | .data n shift width => do
    let v ← M.access fun _ => field rep shift width
    odoData e n v
  | .index n shift width fsize => do
    let v ← M.access fun _ => field rep shift width
    odoIndex n v.toNat fsize

/-- Execute the statements of a case (/repo/src/serial_optimized/842_decompress.cpp 325-483) -/
def optSteps (e : Endian) (rep : BitVec 64) : List OptStep → M ODecomp Unit
  | [] => pure ()
  | s :: ss => do
    optStep e rep s
    optSteps e rep ss

/-- `if (p.errorcode != 0) return p.errorcode;` -/
def checkError : M ODecomp Unit := do
  let p ← M.get
  match p.errorcode with
  | none => pure ()
  | some er => M.fail er

/-- `while (rep-- > 0) { memcpy(p.out, p.out - 8, 8); p.out += 8; }`,
842_decompress.cpp 501-504 -/
def odoRepeat : Nat → M ODecomp Unit
  | 0 => pure ()
  | rep + 1 => do
    let bs ← M.access fun p =>
      if p.out < 8 then none else readBytes p.buf (p.out - 8) 8
    oemit bs
    odoRepeat rep

/-- The `switch` for ops other than `OP_END`, 842_decompress.cpp 323-547 -/
def odoOp (e : Endian) (op : Nat) : M ODecomp Unit :=
  match optSwitch[op]? with
  | some (n, steps) => do
    let rep ← readBits e n
    optSteps e rep steps
  | none =>
    if op = 0x1B then do
      let rep ← readBits e 6
      checkError
      let p ← M.get
      if p.out = 0 then M.fail .EINVAL
      else if p.out + (rep.toNat + 1) * 8 > p.olen then M.fail .ENOSPC
      else odoRepeat (rep.toNat + 1)
    else if op = 0x1C then oemit (List.replicate 8 0#8)
    else M.fail .EINVAL

/-- One iteration of the main loop, 842_decompress.cpp 303-545; returns whether `op`
is `OP_END` (the error check at the end of that iteration repeats the one at its start) -/
def optIter (e : Endian) : M ODecomp Bool := do
  let op ← readBits e 5
  checkError
  let p ← M.get
  if (op.toNat < 0x1a ∨ op.toNat = 0x1C) ∧ p.out + 8 > p.olen then M.fail .ENOSPC
  else if op.toNat = 0x1E then pure true
  else do
    odoOp e op.toNat
    checkError
    pure false

/-- 842_decompress.cpp 302-571; returns the value stored to `*olen`.  `aout` is the
address of `out`. -/
def optBody (e : Endian) (aout fuel : Nat) : M ODecomp Nat := do
  M.doWhile (optIter e) fuel
  let crc ← readBits e 32
  checkError
  let p ← M.get
  let want ← M.access fun p => crc32be e aout 0#32 p.buf p.out
  if crc ≠ want.setWidth 64 then M.fail .EINVAL
  else pure p.out

/-- State after 842_decompress.cpp 286-298 -/
def optInit (inp buf : List Byte) : ODecomp :=
  { inp := inp, word := 0, ilen := inp.length, buf := buf, out := 0, olen := buf.length,
    errorcode := none, bits := 0, buffer := 0#64 }

/-- `optsw842_decompress(in, ilen, out, &olen)`, 842_decompress.cpp 277-572, with an
explicit bound on loop iterations; `ain` and `aout` are the addresses of `in` and `out`. -/
def optsw842DecompressF (fuel : Nat) (e : Endian) (ain aout : Nat) (inp buf : List Byte) : Call :=
  if ain % 8 ≠ 0 ∨ aout % 8 ≠ 0 then sw842DecompressF fuel e aout inp buf
  else
    match optBody e aout fuel (optInit inp buf) with
    | .ok n p => .ret none n p.buf
    | .err er p => .ret (some er) 0 p.buf
    | .ub => .ub
    | .timeout => .timeout

/-- `optsw842_decompress` -/
def optsw842Decompress (e : Endian) (ain aout : Nat) (inp buf : List Byte) : Call :=
  optsw842DecompressF (8 * inp.length + 1) e ain aout inp buf

end Lib842
