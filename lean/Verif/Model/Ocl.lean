import Verif.Model.BitWindow
import Verif.Model.SwDecomp
import Verif.Model.Templates
/-!
# OpenCL decompressor (`/repo/src/ocl/decompress.cl`)

Modelled in the configuration of the repository: `ENABLE_ERROR_HANDLING` (line 43) and
`USE_LOOKAHEAD_BUFFER` (lines 30-41) defined, `DISABLE_CRC` not defined.

Memory is the object the output pointer points into (`buf`, from the output pointer
on) and, unless the kernel decompresses in place, a separate input object.  An access
outside an object is undefined behaviour.  OpenCL defines shifts by the bit width or
more (the amount is taken modulo the width, OpenCL C 6.3.j).

`p->errorcode` is not a field of the state: every assignment to it is followed, before any
other effect, by `return p->errorcode` in `decompress_core`, so it is written `M.fail`.
-/

namespace Lib842

/-- `struct sw842_param_decomp`, decompress.cl 45-64.  `src` is the input object
(`none`: in place, i.e. the object `buf`); `ioff` is the index of the word `istart` points
to in that object; `word` is `p->in - p->istart`; `out` is `p->out - p->ostart` (in
words). -/
structure OclP where
  src : Option (List Byte)
  ioff : Nat
  word : Nat
  ilen : Nat
  buf : List Byte
  out : Nat
  olen : Nat
  bits : Nat
  buffer : BitVec 64
  la : List (BitVec 64)
  deriving DecidableEq, Repr

/-- The input object (/repo/src/ocl/decompress.cl 48, 131, 133) -/
def OclP.input (p : OclP) : List Byte := p.src.getD p.buf

/-- `((p->in - p->istart + k) * sizeof(uint64_t) < p->ilen) ?
swap_be_to_native64(*(p->in + k)) : 0`, decompress.cl 131, 282-287 -/
def oclFetch (e : Endian) (k : Nat) (p : OclP) : Option (BitVec 64) :=
  if (p.word + k) * 8 < p.ilen then
    (load64 e p.input (8 * (p.ioff + p.word + k))).map (swapBe64 e)
  else some 0#64

/-- Lines 125-131: take the first word of the look-ahead buffer, shift the buffer and
fetch the word after it. -/
def oclShift (e : Endian) : M OclP (BitVec 64) := do
  let w ← M.access (oclFetch e 6)
  let p ← M.get
  match p.la with
  | [l0, l1, l2, l3, l4, l5] => do
    M.modify fun p => { p with la := [l1, l2, l3, l4, l5, w] }
    pure l0
  | _ => M.ub

/-- `read_bits`, decompress.cl 113-147 -/
def oclReadBits (e : Endian) (n : Nat) : M OclP (BitVec 64) := do
  let p ← M.get
  if p.bits < n then
    if (p.word + 1) * 8 > p.ilen then M.fail .EINVAL
    else do
      let w ← oclShift e
      M.modify fun p => { p with word := p.word + 1 }
      let r ← M.access fun _ => winMiss p.buffer p.bits n w
      M.modify fun p => { p with buffer := r.2.1, bits := r.2.2 }
      pure r.1
  else do
    let r ← M.access fun p => winHit p.buffer p.bits n
    M.modify fun p => { p with buffer := r.2.1, bits := r.2.2 }
    pure r.1

/-- `get_index`, decompress.cl 149-191; the offset computation (lines 153-171) is the
same as in `__do_index` of the serial version. -/
def oclGetIndex (size index fsize : Nat) : M OclP Nat := do
  let p ← M.get
  let total := p.out * 8
  let offset := indexOffset index size fsize total
  if offset + size > total then M.fail .EINVAL
  else pure offset

/-- `x >> k` and `x << k` on `ulong` in OpenCL C (/repo/src/ocl/decompress.cl 115, 136, 233, 234, 252) -/
def oclShr (x : BitVec 64) (k : Int) : BitVec 64 := x >>> (k % 64).toNat
/-- `x << k`, see `oclShr`; /repo/src/ocl/decompress.cl 138, 143, 250, 255. -/
def oclShl (x : BitVec 64) (k : Int) : BitVec 64 := x <<< (k % 64).toNat

/-- The value of field `i`, decompress.cl 232-234 -/
def oclValue (params : BitVec 64) (opbits numBits : Nat) : BitVec 64 :=
  oclShr params (opbits - numBits) &&&
    ((if numBits ≠ 0 then BitVec.allOnes 64 else 0#64) &&& oclShr (BitVec.allOnes 64) (64 - numBits))

/-- The referenced bytes, decompress.cl 247-252: two 16-bit words are read, whatever
`dst_size` is. -/
def oclRef (e : Endian) (dst offset : Nat) : M OclP (BitVec 64) := do
  let a ← M.access fun p => load16 e p.buf (2 * (offset >>> 1))
  let b ← M.access fun p => load16 e p.buf (2 * (offset >>> 1 + 1))
  let v := oclShl ((swapBe16 e a).setWidth 64) 48 ||| oclShl ((swapBe16 e b).setWidth 64) 32
  pure (oclShr v (64 - (dst <<< 3 : Nat)))

/-- One iteration of the loop in `do_op`, decompress.cl 225-256; the local variables are
`opbits`, `output_word` and `bits`. -/
def oclField (e : Endian) (params : BitVec 64) (isIndex dst numBits : Nat)
    (l : Nat × BitVec 64 × Nat) : M OclP (Nat × BitVec 64 × Nat) := do
  let value := oclValue params l.1 numBits
  let value ← if isIndex ≠ 0 then do
      let offset ← oclGetIndex dst value.toNat (oclFifoSize dst)
      oclRef e dst offset
    else pure value
  pure (l.1 - numBits, l.2.1 ||| oclShl value (64 - (dst <<< 3 : Nat) - l.2.2), l.2.2 + dst <<< 3)

/-- The loop in `do_op`, decompress.cl 215-257; a field is `(is_index, dst_size, num_bits)` -/
def oclFields (e : Endian) (params : BitVec 64) :
    List (Nat × Nat × Nat) → Nat × BitVec 64 × Nat → M OclP (Nat × BitVec 64 × Nat)
  | [], l => pure l
  | f :: fs, l => do
    let l ← oclField e params f.1 f.2.1 f.2.2 l
    oclFields e params fs l

/-- The fields of the iterations `i = 0..3`, decompress.cl 225-229 -/
def oclRow (op : Nat) : List (Nat × Nat × Nat) :=
  [0, 1, 2, 3].map fun i => (oclIsIndex op i, oclDstSize op i, oclNumBits op i)

/-- `*p->out++ = bs` (/repo/src/ocl/decompress.cl 264, 352) -/
def oclPut (bs : List Byte) : M OclP Unit := do
  M.update fun p => (writeBytes p.buf (8 * p.out) bs).map fun b => { p with buf := b }
  M.modify fun p => { p with out := p.out + 1 }

/-- `if ((p->out - p->ostart) * sizeof(uint64_t) + 8 * k > p->olen) return -ENOSPC` -/
def oclRoom (k : Nat) : M OclP Unit := do
  let p ← M.get
  if p.out * 8 + k * 8 > p.olen then M.fail .ENOSPC else pure ()

/-- `do_op`, decompress.cl 193-265 -/
def oclDoOp (e : Endian) (op : Nat) : M OclP Unit := do
  if op ≥ 26 then M.fail .EINVAL
  else do
    let params ← oclReadBits e (oclOpbits op)
    let l ← oclFields e params (oclRow op) (oclOpbits op, 0#64, 0)
    oclRoom 1
    oclPut (wordBytes64 e (swapBe64 e l.2.1))

/-- `while (op-- > 0) { *p.out = *(p.out - 1); p.out++; }`, decompress.cl 320-323 -/
def oclRepeat : Nat → M OclP Unit
  | 0 => pure ()
  | k + 1 => do
    let bs ← M.access fun p => if p.out = 0 then none else readBytes p.buf (8 * (p.out - 1)) 8
    oclPut bs
    oclRepeat k

/-- One iteration of the main loop, decompress.cl 296-362; returns whether `op` is
`OP_END`.  (The copy loop of `OP_REPEAT` leaves `op` at `2^64 - 1`.) -/
def oclIter (e : Endian) : M OclP Bool := do
  let op ← oclReadBits e 5
  if op.toNat = 0x1B then do
    let rep ← oclReadBits e 6
    let p ← M.get
    if p.out = 0 then M.fail .EINVAL
    else do
      oclRoom (rep.toNat + 1)
      oclRepeat (rep.toNat + 1)
      pure false
  else if op.toNat = 0x1C then do
    oclRoom 1
    oclPut (List.replicate 8 0#8)
    pure false
  else if op.toNat = 0x1E then pure true
  else if op.toNat = 26 - 1 then do
    let value ← oclReadBits e 8
    let offset ← oclGetIndex 8 value.toNat (8 * 2 ^ 8)
    oclRoom 1
    let bs ← M.access fun p => readBytes p.buf (8 * (offset >>> 3)) 8
    oclPut bs
    pure false
  else do
    oclDoOp e op.toNat
    pure false

/-- Initialisation of the look-ahead buffer, decompress.cl 282-287 -/
def oclInit (e : Endian) (p : OclP) : Option OclP :=
  match oclFetch e 0 p, oclFetch e 1 p, oclFetch e 2 p, oclFetch e 3 p, oclFetch e 4 p,
    oclFetch e 5 p with
  | some a, some b, some c, some d, some f, some g => some { p with la := [a, b, c, d, f, g] }
  | _, _, _, _, _, _ => none

/-- `decompress_core` after the initialisation, decompress.cl 295-387; the value
returned is stored to `*olen`.  The CRC is read but not compared (line 380). -/
def oclBody (e : Endian) (fuel : Nat) : M OclP Nat := do
  M.doWhile (oclIter e) fuel
  let _crc ← oclReadBits e 32
  let p ← M.get
  pure (p.out * 8)

/-- State after decompress.cl 271-280, 289 -/
def oclStart (src : Option (List Byte)) (ioff ilen : Nat) (buf : List Byte) (olen : Nat) : OclP :=
  { src := src, ioff := ioff, word := 0, ilen := ilen, buf := buf, out := 0, olen := olen,
    bits := 0, buffer := 0#64, la := [] }

/-- `decompress_core(in, ilen, out, &olen)`, decompress.cl 267-388.  `src` and `ioff`
say where `in` points to (see `OclP`); `buf` is the object `out` points into, from there
on; `olen` is the value of `*olen` on entry. -/
def oclCore (e : Endian) (src : Option (List Byte)) (ioff ilen : Nat) (buf : List Byte)
    (olen : Nat) : Call :=
  match oclInit e (oclStart src ioff ilen buf olen) with
  | none => .ub
  | some p =>
    match oclBody e (8 * ilen + 1) p with
    | .ok n p => .ret none n p.buf
    | .err er p => .ret (some er) 0 p.buf
    | .ub => .ub
    | .timeout => .timeout

end Lib842
