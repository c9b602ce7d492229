import Verif.Model.Ocl
/-!
# Other configurations of the OpenCL kernel

`/repo/src/ocl/decompress.cl` has three switches: `USE_LOOKAHEAD_BUFFER` (lines 30-41; the comment
says that it "isn't needed" unless the kernel works in place), `ENABLE_ERROR_HANDLING` (line 43) and
`DISABLE_CRC` (line 368).  `Model/Ocl` has them as they are in the repository.  The functions below are
the same text with the conditional parts made explicit; those without a conditional part are shared.
Without error handling the fields `istart`, `ilen`, `olen` and `errorcode` do not exist: they stay in
the state but are not read.  `OclCfg.Compiles`: the look-ahead buffer uses `istart` and `ilen` (lines
131, 282-287), so without error handling it must be switched off as well.
-/

namespace Lib842

/-- The macros: `errors` is `ENABLE_ERROR_HANDLING` defined, `look` is `USE_LOOKAHEAD_BUFFER` defined,
`crc` is `DISABLE_CRC` not defined (/repo/src/ocl/decompress.cl 30-43, 117, 124) -/
structure OclCfg where
  errors : Bool
  look : Bool
  crc : Bool
  deriving DecidableEq, Repr

/-- Lines 131 and 282-287 refer to members that lines 49-54 declare only with error handling. -/
def OclCfg.Compiles (cfg : OclCfg) : Prop := cfg.look = true → cfg.errors = true

/-- The next word of the input, decompress.cl 124-134: from the look-ahead buffer, or (line 133)
`swap_be_to_native64(*p->in)` -/
def oclNextC (cfg : OclCfg) (e : Endian) : M OclP (BitVec 64) :=
  if cfg.look = true then oclShift e
  else do
    let w ← M.access fun p => load64 e p.input (8 * (p.ioff + p.word))
    pure (swapBe64 e w)

/-- `read_bits`, decompress.cl 113-147; lines 117-123 are conditional -/
def oclReadBitsC (cfg : OclCfg) (e : Endian) (n : Nat) : M OclP (BitVec 64) := do
  let p ← M.get
  if p.bits < n then
    if cfg.errors = true ∧ (p.word + 1) * 8 > p.ilen then M.fail .EINVAL
    else do
      let w ← oclNextC cfg e
      M.modify fun p => { p with word := p.word + 1 }
      let r ← M.access fun _ => winMiss p.buffer p.bits n w
      M.modify fun p => { p with buffer := r.2.1, bits := r.2.2 }
      pure r.1
  else do
    let r ← M.access fun p => winHit p.buffer p.bits n
    M.modify fun p => { p with buffer := r.2.1, bits := r.2.2 }
    pure r.1

/-- `get_index`, decompress.cl 149-191; lines 173-188 are conditional -/
def oclGetIndexC (cfg : OclCfg) (size index fsize : Nat) : M OclP Nat := do
  let p ← M.get
  let total := p.out * 8
  let offset := indexOffset index size fsize total
  if cfg.errors = true ∧ offset + size > total then M.fail .EINVAL
  else pure offset

/-- One iteration of the loop in `do_op`, decompress.cl 225-256.  Without error handling the loop also
runs for ops that are not templates: `opbits` is a `uint8_t` and wraps around. -/
def oclFieldC (cfg : OclCfg) (e : Endian) (params : BitVec 64) (isIndex dst numBits : Nat)
    (l : Nat × BitVec 64 × Nat) : M OclP (Nat × BitVec 64 × Nat) := do
  let value := oclValue params l.1 numBits
  let value ← if isIndex ≠ 0 then do
      let offset ← oclGetIndexC cfg dst value.toNat (oclFifoSize dst)
      oclRef e dst offset
    else pure value
  pure ((((l.1 : Int) - numBits) % 256).toNat, l.2.1 ||| oclShl value (64 - (dst <<< 3 : Nat) - l.2.2), l.2.2 + dst <<< 3)

/-- The loop in `do_op`, decompress.cl 215-257 -/
def oclFieldsC (cfg : OclCfg) (e : Endian) (params : BitVec 64) :
    List (Nat × Nat × Nat) → Nat × BitVec 64 × Nat → M OclP (Nat × BitVec 64 × Nat)
  | [], l => pure l
  | f :: fs, l => do
    let l ← oclFieldC cfg e params f.1 f.2.1 f.2.2 l
    oclFieldsC cfg e params fs l

/-- The check for room, decompress.cl 258-263, 315-318, 326-329, 349-350 -/
def oclRoomC (cfg : OclCfg) (k : Nat) : M OclP Unit := do
  let p ← M.get
  if cfg.errors = true ∧ p.out * 8 + k * 8 > p.olen then M.fail .ENOSPC else pure ()

/-- `do_op`, decompress.cl 193-265; lines 195-200, 210-213, 258-263 are conditional -/
def oclDoOpC (cfg : OclCfg) (e : Endian) (op : Nat) : M OclP Unit := do
  if cfg.errors = true ∧ op ≥ 26 then M.fail .EINVAL
  else do
    let params ← oclReadBitsC cfg e (oclOpbits op)
    let l ← oclFieldsC cfg e params (oclRow op) (oclOpbits op, 0#64, 0)
    oclRoomC cfg 1
    oclPut (wordBytes64 e (swapBe64 e l.2.1))

/-- One iteration of the main loop, decompress.cl 296-362 -/
def oclIterC (cfg : OclCfg) (e : Endian) : M OclP Bool := do
  let op ← oclReadBitsC cfg e 5
  if op.toNat = 0x1B then do
    let rep ← oclReadBitsC cfg e 6
    let p ← M.get
    if cfg.errors = true ∧ p.out = 0 then M.fail .EINVAL
    else do
      oclRoomC cfg (rep.toNat + 1)
      oclRepeat (rep.toNat + 1)
      pure false
  else if op.toNat = 0x1C then do
    oclRoomC cfg 1
    oclPut (List.replicate 8 0#8)
    pure false
  else if op.toNat = 0x1E then pure true
  else if op.toNat = 26 - 1 then do
    let value ← oclReadBitsC cfg e 8
    let offset ← oclGetIndexC cfg 8 value.toNat (8 * 2 ^ 8)
    oclRoomC cfg 1
    let bs ← M.access fun p => readBytes p.buf (8 * (offset >>> 3)) 8
    oclPut bs
    pure false
  else do
    oclDoOpC cfg e op.toNat
    pure false

/-- `decompress_core` after the initialisation, decompress.cl 295-387; lines 368-383 depend on
`DISABLE_CRC` -/
def oclBodyC (cfg : OclCfg) (e : Endian) (fuel : Nat) : M OclP Nat := do
  M.doWhile (oclIterC cfg e) fuel
  if cfg.crc = true then do
    let _crc ← oclReadBitsC cfg e 32
    let p ← M.get
    pure (p.out * 8)
  else do
    let p ← M.get
    pure (p.out * 8)

/-- decompress.cl 281-288 -/
def oclInitC (cfg : OclCfg) (e : Endian) (p : OclP) : Option OclP :=
  if cfg.look = true then oclInit e p else some p

/-- `decompress_core(in, ilen, out, &olen)`, decompress.cl 267-388, in the configuration `cfg`.
Every iteration takes at least 5 bits of the input: with error handling of its `ilen` bytes,
otherwise of the input object. -/
def oclCoreCfg (cfg : OclCfg) (e : Endian) (src : Option (List Byte)) (ioff ilen : Nat) (buf : List Byte)
    (olen : Nat) : Call :=
  match oclInitC cfg e (oclStart src ioff ilen buf olen) with
  | none => .ub
  | some p =>
    match oclBodyC cfg e (8 * (if cfg.errors = true then ilen else (src.getD buf).length) + 1) p with
    | .ok n p => .ret none n p.buf
    | .err er p => .ret (some er) 0 p.buf
    | .ub => .ub
    | .timeout => .timeout

end Lib842
