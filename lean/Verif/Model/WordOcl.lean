import Verif.Model.OclKernel
import Verif.Model.WordDecomp
/-!
# The OpenCL decompressor with machine arithmetic (`/repo/src/ocl/decompress.cl`)

`Model/Ocl` computes with natural numbers where the code computes with `uint8_t`, `int`, `uint32_t`, `uint64_t` and `size_t` (64 bits).  Here all
these variables are words of the width they have in the code, sums, differences and products wrap around, conversions truncate, and `round_down` is
the mask of the macro.  Pointers stay offsets into their object.
-/

namespace Lib842

/-- `struct sw842_param_decomp`, decompress.cl 45-64; see `OclP` for the pointers -/
structure OclPW where
  src : Option (List Byte)
  ioff : Nat
  word : Nat
  ilen : BitVec 64
  buf : List Byte
  out : Nat
  olen : BitVec 64
  bits : BitVec 32
  buffer : BitVec 64
  la : List (BitVec 64)
  deriving DecidableEq, Repr

/-- The input object (/repo/src/ocl/decompress.cl 48, 131, 133) -/
def OclPW.input (p : OclPW) : List Byte := p.src.getD p.buf

/-- `x >> k` for a `uint64_t` and an `int` or `uint32_t`: OpenCL C takes the low six bits of the amount (/repo/src/ocl/decompress.cl 115, 136, 233, 234, 252) -/
def clShr (x : BitVec 64) (k : BitVec 32) : BitVec 64 := x >>> (k.toNat % 64)
/-- `x << k`, see `clShr`; /repo/src/ocl/decompress.cl 138, 143, 255 -/
def clShl (x : BitVec 64) (k : BitVec 32) : BitVec 64 := x <<< (k.toNat % 64)

/-- `((p->in - p->istart + k) * sizeof(uint64_t) < p->ilen) ? swap_be_to_native64(*(p->in + k)) : 0`, decompress.cl 131, 282-287 -/
def oclFetchW (e : Endian) (k : Nat) (p : OclPW) : Option (BitVec 64) :=
  if (BitVec.ofNat 64 p.word + BitVec.ofNat 64 k) * 8#64 < p.ilen then
    (load64 e p.input (8 * (p.ioff + p.word + k))).map (swapBe64 e)
  else some 0#64

/-- decompress.cl 125-131, see `oclShift` -/
def oclShiftW (e : Endian) : M OclPW (BitVec 64) := do
  let w ← M.access (oclFetchW e 6)
  let p ← M.get
  match p.la with
  | [l0, l1, l2, l3, l4, l5] => do
    M.modify fun p => { p with la := [l1, l2, l3, l4, l5, w] }
    pure l0
  | _ => M.ub

/-- `read_bits`, decompress.cl 113-147 -/
def oclReadBitsW (e : Endian) (n : BitVec 32) : M OclPW (BitVec 64) := do
  let p ← M.get
  let value := clShr p.buffer (64#32 - n)
  if p.bits < n then
    if (BitVec.ofNat 64 p.word + 1#64) * 8#64 > p.ilen then M.fail .EINVAL
    else do
      let w ← oclShiftW e
      M.modify fun p => { p with word := p.word + 1 }
      let bits := p.bits + (64#32 - n)
      M.modify fun p => { p with
        buffer := ((clShl w (n - p.bits - 1#32)) <<< 1) * (if bits > 0#32 then 1#64 else 0#64)
        bits := bits }
      pure (value ||| clShr w (64#32 - (n - p.bits)))
  else do
    M.modify fun p => { p with bits := p.bits - n, buffer := clShl p.buffer n }
    pure value

/-- `get_index`, decompress.cl 149-191 -/
def oclGetIndexW (size : BitVec 8) (index fsize : BitVec 64) : M OclPW (BitVec 64) := do
  let p ← M.get
  let total := BitVec.ofNat 64 p.out * 8#64
  let offset := indexOffsetW index (size.setWidth 64) fsize total
  if offset + size.setWidth 64 > total then M.fail .EINVAL
  else pure offset

/-- A comparison as an `int` (/repo/src/ocl/decompress.cl 226-229, 240) -/
def cboolW (b : Bool) : BitVec 32 := if b then 1#32 else 0#32

/-- `opbits`, decompress.cl 207-208, computed in `int` and converted to `uint8_t` -/
def oclOpbitsW (op : BitVec 8) : BitVec 8 :=
  let o := op.setWidth 32
  (64#32 - (o.srem 5#32 + 1#32).sdiv 2#32 * 8#32 - (o.srem 5#32).sdiv 4#32 * 7#32
    - (o.sdiv 5#32 + 1#32).sdiv 2#32 * 8#32 - (o.sdiv 5#32).sdiv 4#32 * 7#32).setWidth 8

/-- `opchunk`, decompress.cl 225 -/
def oclOpchunkW (op : BitVec 8) (i : BitVec 32) : BitVec 8 :=
  (if i.slt 2#32 then (op.setWidth 32).sdiv 5#32 else (op.setWidth 32).srem 5#32).setWidth 8

/-- `is_index`, decompress.cl 226 -/
def oclIsIndexW (op : BitVec 8) (i : BitVec 32) : BitVec 32 :=
  let opchunk := (oclOpchunkW op i).setWidth 32
  (i &&& 1#32) * (opchunk &&& 1#32) + ((i &&& 1#32) ^^^ 1#32) * cboolW (!opchunk.slt 2#32)

/-- `dst_size`, decompress.cl 227 -/
def oclDstSizeW (op : BitVec 8) (i : BitVec 32) : BitVec 32 :=
  let opchunk := (oclOpchunkW op i).setWidth 32
  2#32 + cboolW (!opchunk.slt 4#32) * (1#32 - 2#32 * i.srem 2#32) * 2#32

/-- `num_bits`, decompress.cl 228-229 -/
def oclNumBitsW (op : BitVec 8) (i : BitVec 32) : BitVec 8 :=
  let opchunk := (oclOpchunkW op i).setWidth 32
  ((i &&& 1#32) * (16#32 - opchunk.srem 2#32 * 8#32 - cboolW (!opchunk.slt 4#32) * 16#32) +
    ((i &&& 1#32) ^^^ 1#32) * (16#32 - opchunk.sdiv 2#32 * 8#32 + cboolW (!opchunk.slt 4#32) * 9#32)).setWidth 8

/-- `fifo_size`, decompress.cl 240: an `int` converted to `uint64_t` -/
def oclFifoSizeW (dst : BitVec 32) : BitVec 64 := (2048#32 - 1536#32 * cboolW (dst >>> 2 < 1#32)).signExtend 64

/-- The value of field `i`, decompress.cl 232-234 -/
def oclValueW (params : BitVec 64) (opbits numBits : BitVec 8) : BitVec 64 :=
  clShr params (opbits.setWidth 32 - numBits.setWidth 32) &&&
    ((-(cboolW (numBits ≠ 0#8))).signExtend 64 &&& clShr (BitVec.allOnes 64) (64#32 - numBits.setWidth 32))

/-- The referenced bytes, decompress.cl 247-252 -/
def oclRefW (e : Endian) (dst : BitVec 32) (offset : BitVec 64) : M OclPW (BitVec 64) := do
  let offset := offset >>> 1
  let a ← M.access fun p => load16 e p.buf (2 * offset.toNat)
  let b ← M.access fun p => load16 e p.buf (2 * (offset + 1#64).toNat)
  let v := (swapBe16 e a).setWidth 64 <<< 48 ||| (swapBe16 e b).setWidth 64 <<< 32
  pure (clShr v (64#32 - dst <<< 3))

/-- One iteration of the loop in `do_op`, decompress.cl 225-256; the local variables are `opbits`, `output_word` and `bits` -/
def oclFieldW (e : Endian) (params : BitVec 64) (isIndex dst : BitVec 32) (numBits : BitVec 8)
    (l : BitVec 8 × BitVec 64 × BitVec 32) : M OclPW (BitVec 8 × BitVec 64 × BitVec 32) := do
  let value := oclValueW params l.1 numBits
  let value ← if isIndex ≠ 0#32 then do
      let offset ← oclGetIndexW (dst.setWidth 8) value (oclFifoSizeW dst)
      oclRefW e dst offset
    else pure value
  pure (l.1 - numBits, l.2.1 ||| clShl value (64#32 - dst <<< 3 - l.2.2), l.2.2 + dst <<< 3)

/-- The loop in `do_op`, decompress.cl 215-257 -/
def oclFieldsW (e : Endian) (params : BitVec 64) :
    List (BitVec 32 × BitVec 32 × BitVec 8) → BitVec 8 × BitVec 64 × BitVec 32 → M OclPW (BitVec 8 × BitVec 64 × BitVec 32)
  | [], l => pure l
  | f :: fs, l => do
    let l ← oclFieldW e params f.1 f.2.1 f.2.2 l
    oclFieldsW e params fs l

/-- The fields of the iterations `i = 0..3`, decompress.cl 225-229 -/
def oclRowW (op : BitVec 8) : List (BitVec 32 × BitVec 32 × BitVec 8) :=
  [0#32, 1#32, 2#32, 3#32].map fun i => (oclIsIndexW op i, oclDstSizeW op i, oclNumBitsW op i)

/-- `*p->out++ = bs` (/repo/src/ocl/decompress.cl 264, 352) -/
def oclPutW (bs : List Byte) : M OclPW Unit := do
  M.update fun p => (writeBytes p.buf (8 * p.out) bs).map fun b => { p with buf := b }
  M.modify fun p => { p with out := p.out + 1 }

/-- `if ((p->out - p->ostart) * sizeof(uint64_t) + k > p->olen) return -ENOSPC` (/repo/src/ocl/decompress.cl 259, 316, 327, 348) -/
def oclRoomW (k : BitVec 64) : M OclPW Unit := do
  let p ← M.get
  if BitVec.ofNat 64 p.out * 8#64 + k > p.olen then M.fail .ENOSPC else pure ()

/-- `do_op`, decompress.cl 193-265 -/
def oclDoOpW (e : Endian) (op : BitVec 8) : M OclPW Unit := do
  if op ≥ 26#8 then M.fail .EINVAL
  else do
    let params ← oclReadBitsW e ((oclOpbitsW op).setWidth 32)
    let l ← oclFieldsW e params (oclRowW op) (oclOpbitsW op, 0#64, 0#32)
    oclRoomW 8#64
    oclPutW (wordBytes64 e (swapBe64 e l.2.1))

/-- `while (op-- > 0) { *p.out = *(p.out - 1); p.out++; }`, decompress.cl 320-323 -/
def oclRepeatW : Nat → M OclPW Unit
  | 0 => pure ()
  | k + 1 => do
    let bs ← M.access fun p => if p.out = 0 then none else readBytes p.buf (8 * (p.out - 1)) 8
    oclPutW bs
    oclRepeatW k

/-- One iteration of the main loop, decompress.cl 296-362; `do_op` takes a `uint8_t` -/
def oclIterW (e : Endian) : M OclPW Bool := do
  let op ← oclReadBitsW e 5#32
  if op = 0x1B#64 then do
    let rep ← oclReadBitsW e 6#32
    let p ← M.get
    if p.out = 0 then M.fail .EINVAL
    else do
      oclRoomW ((rep + 1#64) * 8#64)
      oclRepeatW (rep + 1#64).toNat
      pure false
  else if op = 0x1C#64 then do
    oclRoomW 8#64
    oclPutW (List.replicate 8 0#8)
    pure false
  else if op = 0x1E#64 then pure true
  else if op = 25#64 then do
    let value ← oclReadBitsW e 8#32
    let offset ← oclGetIndexW 8#8 value 2048#64
    oclRoomW 8#64
    let bs ← M.access fun p => readBytes p.buf (8 * (offset >>> 3).toNat) 8
    oclPutW bs
    pure false
  else do
    oclDoOpW e (op.setWidth 8)
    pure false

/-- Initialisation of the look-ahead buffer, decompress.cl 282-287 -/
def oclInitW (e : Endian) (p : OclPW) : Option OclPW :=
  match oclFetchW e 0 p, oclFetchW e 1 p, oclFetchW e 2 p, oclFetchW e 3 p, oclFetchW e 4 p,
    oclFetchW e 5 p with
  | some a, some b, some c, some d, some f, some g => some { p with la := [a, b, c, d, f, g] }
  | _, _, _, _, _, _ => none

/-- `decompress_core` after the initialisation, decompress.cl 295-387 -/
def oclBodyW (e : Endian) (fuel : Nat) : M OclPW (BitVec 64) := do
  M.doWhile (oclIterW e) fuel
  let _crc ← oclReadBitsW e 32#32
  let p ← M.get
  pure (BitVec.ofNat 64 p.out * 8#64)

/-- State after decompress.cl 271-280, 289 -/
def oclStartW (src : Option (List Byte)) (ioff : Nat) (ilen : BitVec 64) (buf : List Byte) (olen : BitVec 64) : OclPW :=
  { src := src, ioff := ioff, word := 0, ilen := ilen, buf := buf, out := 0, olen := olen,
    bits := 0#32, buffer := 0#64, la := [] }

/-- `decompress_core(in, ilen, out, &olen)`, decompress.cl 267-388; see `oclCore` -/
def oclCoreW (e : Endian) (src : Option (List Byte)) (ioff : Nat) (ilen : BitVec 64) (buf : List Byte)
    (olen : BitVec 64) : Call :=
  match oclInitW e (oclStartW src ioff ilen buf olen) with
  | none => .ub
  | some p =>
    match oclBodyW e (8 * ilen.toNat + 1) p with
    | .ok n p => .ret none n.toNat p.buf
    | .err er p => .ret (some er) 0 p.buf
    | .ub => .ub
    | .timeout => .timeout

/-- One work item, decompress.cl 407-446; see `oclItem` -/
def oclItemW (e : Endian) (fmt : ClFormat) (chunkSize : BitVec 64) (inp buf : List Byte)
    (ilen olen : Option (BitVec 64)) : Call :=
  match fmt with
  | .always => oclCoreW e (some inp) 0 (ilen.getD (BitVec.allOnes 64)) buf (olen.getD (BitVec.allOnes 64))
  | _ =>
    let src := if fmt = .maybe then some inp else none
    let my := src.getD buf
    match notMarked e my with
    | none => .ub
    | some true =>
      if fmt = .maybe then
        match copyWords inp (chunkSize / 8#64).toNat buf with
        | none => .ub
        | some b => .ret none chunkSize.toNat b
      else .ret none chunkSize.toNat buf
    | some false =>
      match load64 e my 16 with
      | none => .ub
      | some n =>
        if n = 0#64 then .ret none chunkSize.toNat buf
        else oclCoreW e src ((chunkSize - n) / 8#64).toNat n buf (olen.getD (BitVec.allOnes 64))

end Lib842
