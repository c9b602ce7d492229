import Verif.Model.BranchFree
import Verif.Model.Config
/-!
# `BRANCH_FREE` together with the two other switches of the optimised codec

`/repo/src/serial_optimized/842_compress.cpp` and `842_decompress.cpp` with
`-DBRANCH_FREE=1` and any choice of `ENABLE_ERROR_HANDLING` and `DISABLE_CRC` (`OptCfg`).
`Model/BranchFree` has the other two switches as they are in the repository, `Model/Config`
is without `BRANCH_FREE`.

Without error handling `do_op` does not look at the op it gets (lines 188-193), so the
formulas for the fields are also evaluated for the ops 26, 29 and 31, where they leave the
range they were made for: `num_bits` may be 248, and then `opbits` wraps around.
-/

namespace Lib842

/-- `get_index`, 842_decompress.cpp 147-180; lines 170-177 are conditional -/
def bfGetIndexC (cfg : OptCfg) (size index fsize : Nat) : M ODecomp Nat := do
  let p ← M.get
  let total := roundDown p.out 8
  let offset := indexOffset index size fsize total
  if cfg.errors = true ∧ offset + size > total then do
    M.modify fun p => { p with errorcode := some .EINVAL }
    pure 0
  else pure offset

/-- One iteration of the loop in `do_op`, 842_decompress.cpp 205-250; lines 235-241 depend on
`ENABLE_ERROR_HANDLING`: without it `get_index` is called for every field.  `opbits` is a
`uint8_t`. -/
def bfFieldC (S : OverShift) (cfg : OptCfg) (e : Endian) (params : BitVec 64) (isIndex dst numBits : Nat)
    (l : Nat × BitVec 64 × Nat) : M ODecomp (Nat × BitVec 64 × Nat) := do
  let ones ← M.access fun _ => S.r (BitVec.allOnes 64) ((64 : Int) - (numBits : Int))
  let bitsmask := (if numBits ≠ 0 then BitVec.allOnes 64 else 0#64) &&& ones
  let v ← M.access fun _ => S.r params ((l.1 : Int) - (numBits : Int))
  let x := if isIndex = 0 then v &&& bitsmask else 0#64
  let y := if isIndex = 0 then 0#64 else v &&& bitsmask
  let offset ← if cfg.errors = true ∧ isIndex = 0 then pure 0 else bfGetIndexC cfg dst y.toNat (oclFifoSize dst)
  checkErrorC cfg
  let bs ← M.access fun p => readBytes p.buf (offset * isIndex) (dst * isIndex)
  let y ← M.access fun _ => load64 e (bs ++ (wordBytes64 e y).drop (dst * isIndex)) 0
  let y ← M.access fun _ => S.r (swapBe64 e y) ((64 : Int) - ((dst <<< 3 : Nat) : Int))
  let x := y * BitVec.ofNat 64 isIndex ||| x
  let x ← M.access fun _ => S.l x ((64 : Int) - ((dst <<< 3 : Nat) : Int) - (l.2.2 : Int))
  pure ((l.1 + 256 - numBits) % 256, l.2.1 ||| x, l.2.2 + dst <<< 3)

/-- The loop in `do_op`; a field is `(is_index, dst_size, num_bits)` (/repo/src/serial_optimized/842_decompress.cpp 205-250) -/
def bfFieldsC (S : OverShift) (cfg : OptCfg) (e : Endian) (params : BitVec 64) :
    List (Nat × Nat × Nat) → Nat × BitVec 64 × Nat → M ODecomp (Nat × BitVec 64 × Nat)
  | [], l => pure l
  | f :: fs, l => do
    let l ← bfFieldC S cfg e params f.1 f.2.1 f.2.2 l
    bfFieldsC S cfg e params fs l

/-- `do_op`, 842_decompress.cpp 182-259; lines 188-193, 200-203 and 251-256 are conditional -/
def bfDoOpC (S : OverShift) (cfg : OptCfg) (e : Endian) (op : Nat) : M ODecomp Unit := do
  if cfg.errors = true ∧ op ≥ 26 then M.fail .EINVAL
  else do
    let params ← readBitsC cfg e (oclOpbits op)
    checkErrorC cfg
    let l ← bfFieldsC S cfg e params (oclRow op) (oclOpbits op, 0#64, 0)
    let p ← M.get
    if cfg.errors = true ∧ p.out + 8 > p.olen then M.fail .ENOSPC
    else oemit (wordBytes64 e (swapBe64 e l.2.1))

/-- The `switch` for ops other than `OP_END`, 842_decompress.cpp 484-535; lines 485-491,
496-499, 515-518, 520-523 and 531-534 are conditional -/
def bfOpC (S : OverShift) (cfg : OptCfg) (e : Endian) (op : Nat) : M ODecomp Unit :=
  if op = 0x1B then do
    let rep ← readBitsC cfg e 6
    checkErrorC cfg
    let p ← M.get
    if cfg.errors = true ∧ p.out = 0 then M.fail .EINVAL
    else if cfg.errors = true ∧ p.out + (rep.toNat + 1) * 8 > p.olen then M.fail .ENOSPC
    else odoRepeat (rep.toNat + 1)
  else if op = 0x1C then oemit (List.replicate 8 0#8)
  else if op = 0x19 then do
    let value ← readBitsC cfg e 8
    checkErrorC cfg
    let offset ← bfGetIndexC cfg 8 value.toNat 2048
    checkErrorC cfg
    let bs ← M.access fun p => readBytes p.buf offset 8
    oemit bs
  else bfDoOpC S cfg e op

/-- One iteration of the main loop, 842_decompress.cpp 303-545; lines 305-308, 314-321 and
543-546 are conditional -/
def bfIterC (S : OverShift) (cfg : OptCfg) (e : Endian) : M ODecomp Bool := do
  let op ← readBitsC cfg e 5
  checkErrorC cfg
  let p ← M.get
  if cfg.errors = true ∧ (op.toNat < 0x1a ∨ op.toNat = 0x1C) ∧ p.out + 8 > p.olen then M.fail .ENOSPC
  else if op.toNat = 0x1E then pure true
  else do
    bfOpC S cfg e op.toNat
    checkErrorC cfg
    pure false

/-- 842_decompress.cpp 302-571; lines 553-568 depend on `DISABLE_CRC`, lines 555-558 also on
`ENABLE_ERROR_HANDLING` -/
def bfBodyC (S : OverShift) (cfg : OptCfg) (e : Endian) (aout fuel : Nat) : M ODecomp Nat := do
  M.doWhile (bfIterC S cfg e) fuel
  if cfg.crc = true then do
    let crc ← readBitsC cfg e 32
    checkErrorC cfg
    let p ← M.get
    let want ← M.access fun p => crc32be e aout 0#32 p.buf p.out
    if crc ≠ want.setWidth 64 then M.fail .EINVAL
    else pure p.out
  else do
    let p ← M.get
    pure p.out

/-- `optsw842_decompress` with `BRANCH_FREE` 1 in the configuration `cfg`,
842_decompress.cpp 277-572 -/
def optDecompressBFC (S : OverShift) (cfg : OptCfg) (e : Endian) (ain aout : Nat) (inp buf : List Byte) : Call :=
  if ain % 8 ≠ 0 ∨ aout % 8 ≠ 0 then sw842Decompress e aout inp buf
  else
    match bfBodyC S cfg e aout (8 * inp.length + 1) (optInit inp buf) with
    | .ok n p => .ret none n p.buf
    | .err er p => .ret (some er) 0 p.buf
    | .ub => .ub
    | .timeout => .timeout

/-- `optsw842_compress` with `BRANCH_FREE` 1 in the configuration `cfg`,
842_compress.cpp 569-682 -/
def optCompressBFC (S : OverShift) (cfg : OptCfg) (e : Endian) (ain aout : Nat) (j : OptJunk) (jsw : CompJunk)
    (inp buf : List Byte) : Call :=
  if inp.length % 8 ≠ 0 then .ret (some .EINVAL) buf.length buf
  else if ain % 8 ≠ 0 ∨ aout % 8 ≠ 0 then sw842CompressF (inp.length / 8 + 1) e ain jsw inp buf
  else
    match ocompBodyC (.bf S e) cfg e ain (inp.length / 8 + 1) inp (ocompInit j inp buf) with
    | .ok n p => .ret none n p.s.buf
    | .err er p => .ret (some er) 0 p.s.buf
    | .ub => .ub
    | .timeout => .timeout

end Lib842
