import Verif.Model.OptComp
import Verif.Model.OptDecomp
import Verif.Model.Ocl
/-!
# The `BRANCH_FREE` configuration of the optimised codec

`/repo/src/serial_optimized/842_compress.cpp` and `842_decompress.cpp` with
`-DBRANCH_FREE=1` (`ENABLE_ERROR_HANDLING` defined, `DISABLE_CRC` not).  Only the parts under
`#if defined(BRANCH_FREE) && BRANCH_FREE == 1` differ from `Model/OptComp` and
`Model/OptDecomp`.

These parts shift 64-bit words by 64, which C++ leaves undefined and every processor defines
in its own way.  The model takes what such a shift gives as a parameter.
-/

namespace Lib842

/-- What `x >> k` and `x << k` on `uint64_t` give if `k` is negative or at least 64; `none`
is undefined behaviour. -/
structure OverShift where
  shr : BitVec 64 → Int → Option (BitVec 64)
  shl : BitVec 64 → Int → Option (BitVec 64)

/-- The C++ standard (part of the model only, no counterpart in /repo: a shift by 64, as in /repo/src/serial_optimized/842_decompress.cpp 227, is undefined) -/
def OverShift.strict : OverShift := ⟨fun _ _ => none, fun _ _ => none⟩

/-- The shift instructions of x86-64 and 64-bit ARM: the amount counts modulo 64. -/
def OverShift.mod64 : OverShift :=
  ⟨fun x k => some (x >>> (k % 64).toNat), fun x k => some (x <<< (k % 64).toNat)⟩

/-- The shift instructions of POWER: the amount counts modulo 128 and 64 to 127 give 0. -/
def OverShift.zero : OverShift := ⟨fun _ _ => some 0#64, fun _ _ => some 0#64⟩

/-- `x >> k` (/repo/src/serial_optimized/842_decompress.cpp 227, 229, 245) -/
def OverShift.r (S : OverShift) (x : BitVec 64) (k : Int) : Option (BitVec 64) :=
  match cshr x k with
  | some v => some v
  | none => S.shr x k

/-- `x << k` (/repo/src/serial_optimized/842_decompress.cpp 248, /repo/src/serial_optimized/842_compress.cpp 468) -/
def OverShift.l (S : OverShift) (x : BitVec 64) (k : Int) : Option (BitVec 64) :=
  match cshl x k with
  | some v => some v
  | none => S.shl x k

/-! ## Compressor -/

/-- `get_next_data`, 842_compress.cpp 389-402 -/
def bfGetNextData (e : Endian) (c : OCore) : Option OCore := do
  let c ← ogetNextData e c
  let mid ← load32 e c.inp (c.pos + 2)
  some { c with dai := upd (upd c.dai 14 ((swapBe32 e mid).setWidth 64)) 15 0#64 }

/-- The loop over the four operations, 842_compress.cpp 466-471, with `paramword` and
`totalbits` (a `uint8_t`) -/
def bfParams (S : OverShift) (dai : Nat → BitVec 64) :
    List (Nat × Nat) → BitVec 64 → Nat → Option (BitVec 64 × Nat)
  | [], paramword, totalbits => some (paramword, totalbits)
  | (src, opbits) :: ops, paramword, totalbits => do
    let paramword ← S.l paramword opbits
    let v ← arrGet 16 dai src
    bfParams S dai ops (paramword ||| v) ((totalbits + opbits) % 2 ^ 8)

/-- Lines 460-472 of `process_next` -/
def bfAddTemplate (S : OverShift) (e : Endian) (templateKey : Nat) : M OComp Unit := do
  liftS (streamWriteBits e (BitVec.ofNat 64 templateKey) 5)
  let p ← M.get
  let r ← M.access fun _ => (bfTemplates[templateKey]?).bind fun ops => bfParams S p.core.dai ops 0#64 0
  liftS (streamWriteBits e r.1 r.2)

/-- `process_next`, 842_compress.cpp 434-557 -/
def bfProcessNext (S : OverShift) (e : Endian) : M OComp Unit := do
  liftC fun c => some { c with validity := fun k => if k < 7 then 0#16 else c.validity k
                               keys := fun k => if k < 7 then 0#16 else c.keys k }
  liftC fun c => some (hashAll c)
  liftC findIndex
  let p ← M.get
  let templateKey ← M.access fun _ => getTemplate p.core.keys
  bfAddTemplate S e templateKey

/-- The configuration `BRANCH_FREE` 1 -/
def OConf.bf (S : OverShift) (e : Endian) : OConf := ⟨bfGetNextData e, bfProcessNext S e⟩

/-- `optsw842_compress` with `BRANCH_FREE` 1, 842_compress.cpp 569-682 -/
def optsw842CompressBF (S : OverShift) (e : Endian) (ain aout : Nat) (j : OptJunk) (jsw : CompJunk)
    (inp buf : List Byte) : Call :=
  let fuel := inp.length / 8 + 1
  if inp.length % 8 ≠ 0 then .ret (some .EINVAL) buf.length buf
  else if ain % 8 ≠ 0 ∨ aout % 8 ≠ 0 then sw842CompressF fuel e ain jsw inp buf
  else
    match ocompBody (.bf S e) e ain fuel inp (ocompInit j inp buf) with
    | .ok n p => .ret none n p.s.buf
    | .err er p => .ret (some er) 0 p.s.buf
    | .ub => .ub
    | .timeout => .timeout

/-! ## Decompressor -/

/-- `get_index`, 842_decompress.cpp 147-180.  Unlike `do_index` it overwrites an earlier
error. -/
def bfGetIndex (size index fsize : Nat) : M ODecomp Nat := do
  let p ← M.get
  let total := roundDown p.out 8
  let offset := indexOffset index size fsize total
  if offset + size > total then do
    M.modify fun p => { p with errorcode := some .EINVAL }
    pure 0
  else pure offset

/-- One iteration of the loop in `do_op`, 842_decompress.cpp 204-248; the local variables are
`opbits`, `output_word` and `bits`; `x` is `values[i]` and `y` is `values[4 + i]`.  The
`memcpy` replaces the first `dst_size * is_index` bytes of `values[4 + i]`. -/
def bfField (S : OverShift) (e : Endian) (params : BitVec 64) (isIndex dst numBits : Nat)
    (l : Nat × BitVec 64 × Nat) : M ODecomp (Nat × BitVec 64 × Nat) := do
  let ones ← M.access fun _ => S.r (BitVec.allOnes 64) ((64 : Int) - (numBits : Int))
  let bitsmask := (if numBits ≠ 0 then BitVec.allOnes 64 else 0#64) &&& ones
  let v ← M.access fun _ => S.r params ((l.1 : Int) - (numBits : Int))
  let x := if isIndex = 0 then v &&& bitsmask else 0#64
  let y := if isIndex = 0 then 0#64 else v &&& bitsmask
  let offset ← if isIndex ≠ 0 then bfGetIndex dst y.toNat (oclFifoSize dst) else pure 0
  checkError
  let bs ← M.access fun p => readBytes p.buf (offset * isIndex) (dst * isIndex)
  let y ← M.access fun _ => load64 e (bs ++ (wordBytes64 e y).drop (dst * isIndex)) 0
  let y ← M.access fun _ => S.r (swapBe64 e y) ((64 : Int) - ((dst <<< 3 : Nat) : Int))
  let x := y * BitVec.ofNat 64 isIndex ||| x
  let x ← M.access fun _ => S.l x ((64 : Int) - ((dst <<< 3 : Nat) : Int) - (l.2.2 : Int))
  pure (l.1 - numBits, l.2.1 ||| x, l.2.2 + dst <<< 3)

/-- The loop in `do_op`; a field is `(is_index, dst_size, num_bits)` (/repo/src/serial_optimized/842_decompress.cpp 205-250) -/
def bfFields (S : OverShift) (e : Endian) (params : BitVec 64) :
    List (Nat × Nat × Nat) → Nat × BitVec 64 × Nat → M ODecomp (Nat × BitVec 64 × Nat)
  | [], l => pure l
  | f :: fs, l => do
    let l ← bfField S e params f.1 f.2.1 f.2.2 l
    bfFields S e params fs l

/-- `do_op`, 842_decompress.cpp 182-259.  Whenever it sets `errorcode` it returns, and its
caller returns `errorcode` at once (530-532), so setting the code is the same as failing. -/
def bfDoOp (S : OverShift) (e : Endian) (op : Nat) : M ODecomp Unit := do
  if op ≥ 26 then M.fail .EINVAL
  else do
    let params ← readBits e (oclOpbits op)
    checkError
    let l ← bfFields S e params (oclRow op) (oclOpbits op, 0#64, 0)
    let p ← M.get
    if p.out + 8 > p.olen then M.fail .ENOSPC
    else oemit (wordBytes64 e (swapBe64 e l.2.1))

/-- The `switch` for ops other than `OP_END`, 842_decompress.cpp 484-535 -/
def bfOp (S : OverShift) (e : Endian) (op : Nat) : M ODecomp Unit :=
  if op = 0x1B then do
    let rep ← readBits e 6
    checkError
    let p ← M.get
    if p.out = 0 then M.fail .EINVAL
    else if p.out + (rep.toNat + 1) * 8 > p.olen then M.fail .ENOSPC
    else odoRepeat (rep.toNat + 1)
  else if op = 0x1C then oemit (List.replicate 8 0#8)
  else if op = 0x19 then do
    let value ← readBits e 8
    checkError
    let offset ← bfGetIndex 8 value.toNat 2048
    checkError
    let bs ← M.access fun p => readBytes p.buf offset 8
    oemit bs
  else bfDoOp S e op

/-- One iteration of the main loop, 842_decompress.cpp 303-545 -/
def bfIter (S : OverShift) (e : Endian) : M ODecomp Bool := do
  let op ← readBits e 5
  checkError
  let p ← M.get
  if (op.toNat < 0x1a ∨ op.toNat = 0x1C) ∧ p.out + 8 > p.olen then M.fail .ENOSPC
  else if op.toNat = 0x1E then pure true
  else do
    bfOp S e op.toNat
    checkError
    pure false

/-- 842_decompress.cpp 302-571; returns the value stored to `*olen` -/
def bfBody (S : OverShift) (e : Endian) (aout fuel : Nat) : M ODecomp Nat := do
  M.doWhile (bfIter S e) fuel
  let crc ← readBits e 32
  checkError
  let p ← M.get
  let want ← M.access fun p => crc32be e aout 0#32 p.buf p.out
  if crc ≠ want.setWidth 64 then M.fail .EINVAL
  else pure p.out

/-- `optsw842_decompress` with `BRANCH_FREE` 1, 842_decompress.cpp 277-572 -/
def optsw842DecompressBF (S : OverShift) (e : Endian) (ain aout : Nat) (inp buf : List Byte) : Call :=
  let fuel := 8 * inp.length + 1
  if ain % 8 ≠ 0 ∨ aout % 8 ≠ 0 then sw842DecompressF fuel e aout inp buf
  else
    match bfBody S e aout fuel (optInit inp buf) with
    | .ok n p => .ret none n p.buf
    | .err er p => .ret (some er) 0 p.buf
    | .ub => .ub
    | .timeout => .timeout

end Lib842
