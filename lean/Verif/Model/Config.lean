import Verif.Model.OptComp
import Verif.Model.OptDecomp
/-!
# Other configurations of the optimised codec

`ENABLE_ERROR_HANDLING` (`/repo/src/serial_optimized/842-internal.h` 8-11) and `DISABLE_CRC`
(`/repo/src/serial_optimized/842_decompress.cpp` 553-568, `842_compress.cpp` 663-667) are
macros that a user may switch: the comment at the first one recommends to undefine it "in a
controlled environment".  `Model/OptDecomp` and `Model/OptComp` have the macros as they are
in the repository.  The functions below are the same text with the conditional parts made
explicit; those without a conditional part are shared.  The fields `ilen`, `olen` and
`errorcode` do not exist without error handling: they stay in the state but are not read.
-/

namespace Lib842

/-- The two macros: `errors` is `ENABLE_ERROR_HANDLING` defined, `crc` is `DISABLE_CRC` not
defined (`#ifdef`s in /repo/src/serial_optimized/842_decompress.cpp 58, 130, 290, 305, 314) -/
structure OptCfg where
  errors : Bool
  crc : Bool
  deriving DecidableEq, Repr

/-- `read_word`, 842_decompress.cpp 56-67; lines 58-64 are conditional -/
def readWordC (cfg : OptCfg) (e : Endian) : M ODecomp (BitVec 64) := do
  let p ← M.get
  if cfg.errors = true ∧ (p.word + 1) * 8 > p.ilen then do
    M.modify (ODecomp.setError .EINVAL)
    pure 0#64
  else do
    let w ← M.access fun p => load64 e p.inp (8 * p.word)
    M.modify fun p => { p with word := p.word + 1 }
    pure (swapBe64 e w)

/-- `read_bits`, 842_decompress.cpp 70-86 -/
def readBitsC (cfg : OptCfg) (e : Endian) (n : Nat) : M ODecomp (BitVec 64) := do
  let p ← M.get
  if p.bits < n then do
    let w ← readWordC cfg e
    let r ← M.access fun _ => winMiss p.buffer p.bits n w
    M.modify fun p => { p with buffer := r.2.1, bits := r.2.2 }
    pure r.1
  else do
    let r ← M.access fun p => winHit p.buffer p.bits n
    M.modify fun p => { p with buffer := r.2.1, bits := r.2.2 }
    pure r.1

/-- `memcpy(p->out, &p->ostart[offset], size)`: the two areas must not overlap (C standard,
7.24.2.1); in the default configuration lines 130-139 exclude that. -/
def copySrc (p : ODecomp) (offset size : Nat) : Option (List Byte) :=
  if offset < p.out + size ∧ p.out < offset + size then none else readBytes p.buf offset size

/-- `do_index`, 842_decompress.cpp 107-143; lines 130-139 are conditional -/
def odoIndexC (cfg : OptCfg) (size index fsize : Nat) : M ODecomp Unit := do
  let p ← M.get
  let total := roundDown p.out 8
  let offset := indexOffset index size fsize total
  if cfg.errors = true ∧ offset + size > total then M.modify (ODecomp.setError .EINVAL)
  else do
    let bs ← M.access fun p => copySrc p offset size
    oemit bs

/-- Execute one statement of a case (/repo/src/serial_optimized/842_decompress.cpp 325-483) -/
def optStepC (cfg : OptCfg) (e : Endian) (rep : BitVec 64) : OptStep → M ODecomp Unit
  | .data n shift width => do
    let v ← M.access fun _ => field rep shift width
    odoData e n v
  | .index n shift width fsize => do
    let v ← M.access fun _ => field rep shift width
    odoIndexC cfg n v.toNat fsize

/-- Execute the statements of a case (/repo/src/serial_optimized/842_decompress.cpp 325-483) -/
def optStepsC (cfg : OptCfg) (e : Endian) (rep : BitVec 64) : List OptStep → M ODecomp Unit
  | [] => pure ()
  | s :: ss => do
    optStepC cfg e rep s
    optStepsC cfg e rep ss

/-- `#ifdef ENABLE_ERROR_HANDLING if (p.errorcode != 0) return p.errorcode; #endif` -/
def checkErrorC (cfg : OptCfg) : M ODecomp Unit :=
  if cfg.errors = true then checkError else pure ()

/-- The `switch` for ops other than `OP_END`, 842_decompress.cpp 323-547; lines 485-491 and
496-499 are conditional -/
def odoOpC (cfg : OptCfg) (e : Endian) (op : Nat) : M ODecomp Unit :=
  match optSwitch[op]? with
  | some (n, steps) => do
    let rep ← readBitsC cfg e n
    optStepsC cfg e rep steps
  | none =>
    if op = 0x1B then do
      let rep ← readBitsC cfg e 6
      checkErrorC cfg
      let p ← M.get
      if cfg.errors = true ∧ p.out = 0 then M.fail .EINVAL
      else if cfg.errors = true ∧ p.out + (rep.toNat + 1) * 8 > p.olen then M.fail .ENOSPC
      else odoRepeat (rep.toNat + 1)
    else if op = 0x1C then oemit (List.replicate 8 0#8)
    else M.fail .EINVAL

/-- One iteration of the main loop, 842_decompress.cpp 303-545; lines 305-308, 314-321 and
543-546 are conditional -/
def optIterC (cfg : OptCfg) (e : Endian) : M ODecomp Bool := do
  let op ← readBitsC cfg e 5
  checkErrorC cfg
  let p ← M.get
  if cfg.errors = true ∧ (op.toNat < 0x1a ∨ op.toNat = 0x1C) ∧ p.out + 8 > p.olen then M.fail .ENOSPC
  else if op.toNat = 0x1E then pure true
  else do
    odoOpC cfg e op.toNat
    checkErrorC cfg
    pure false

/-- 842_decompress.cpp 302-571; lines 553-568 depend on `DISABLE_CRC`, lines 555-558 also on
`ENABLE_ERROR_HANDLING` -/
def optBodyC (cfg : OptCfg) (e : Endian) (aout fuel : Nat) : M ODecomp Nat := do
  M.doWhile (optIterC cfg e) fuel
  if cfg.crc = true then do
    let crc ← readBitsC cfg e 32
    checkErrorC cfg
    let p ← M.get
    let want ← M.access fun p => crc32be e aout 0#32 p.buf p.out
    if crc ≠ want.setWidth 64 then M.fail .EINVAL
    else pure p.out
  else do
    let p ← M.get
    pure p.out

/-- `optsw842_decompress(in, ilen, out, &olen)`, 842_decompress.cpp 277-572, in the
configuration `cfg`.  The serial version, used for unaligned buffers, does not know these
macros. -/
def optDecompressCfg (cfg : OptCfg) (e : Endian) (ain aout : Nat) (inp buf : List Byte) : Call :=
  if ain % 8 ≠ 0 ∨ aout % 8 ≠ 0 then sw842Decompress e aout inp buf
  else
    match optBodyC cfg e aout (8 * inp.length + 1) (optInit inp buf) with
    | .ok n p => .ret none n p.buf
    | .err er p => .ret (some er) 0 p.buf
    | .ub => .ub
    | .timeout => .timeout

/-- The `try` block of `optsw842_compress`, 842_compress.cpp 603-671; lines 663-667 depend on
`DISABLE_CRC`; `cf` is the part that depends on `BRANCH_FREE` -/
def ocompBodyC (cf : OConf) (cfg : OptCfg) (e : Endian) (addr fuel : Nat) (inp : List Byte) : M OComp Nat := do
  let p ← M.get
  let first ← M.access fun _ => load64 e p.core.inp p.core.pos
  let rc ← ocompLoop cf e fuel (~~~ first) 0
  if rc ≠ 0 then liftS (oaddRepeat e rc) else pure ()
  liftS (streamWriteBits e 0x1E#64 5)
  if cfg.crc = true then do
    let crc ← M.access fun _ => crc32be e addr 0#32 inp inp.length
    liftS (streamWriteBits e (crc.setWidth 64) 32)
  else pure ()
  liftS (streamFlush e)
  let p ← M.get
  pure (8 * p.s.ptr)

/-- `optsw842_compress(in, ilen, out, &olen)`, 842_compress.cpp 569-682, in the configuration
`cfg` -/
def optCompressCfg (cfg : OptCfg) (e : Endian) (ain aout : Nat) (j : OptJunk) (jsw : CompJunk)
    (inp buf : List Byte) : Call :=
  if inp.length % 8 ≠ 0 then .ret (some .EINVAL) buf.length buf
  else if ain % 8 ≠ 0 ∨ aout % 8 ≠ 0 then sw842CompressF (inp.length / 8 + 1) e ain jsw inp buf
  else
    match ocompBodyC (.std e) cfg e ain (inp.length / 8 + 1) inp (ocompInit j inp buf) with
    | .ok n p => .ret none n p.s.buf
    | .err er p => .ret (some er) 0 p.s.buf
    | .ub => .ub
    | .timeout => .timeout

end Lib842
