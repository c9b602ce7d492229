import Verif.Model.Call
import Verif.Model.Crc
/-!
# Software decompressor (`/repo/src/serial/842_decompress.c`)

Lengths and positions are natural numbers; see `SwComp` for conventions.
-/

namespace Lib842

/-- `struct sw842_param_decomp`, 842_decompress.c 31-38: `pos` is `p->in` as an
offset into the input, `out` is `p->out - p->ostart`. -/
structure Decomp where
  inp : List Byte
  pos : Nat
  bit : Nat
  ilen : Nat
  buf : List Byte
  out : Nat
  olen : Nat
  deriving DecidableEq, Repr

/-- `__split_next_bits`, 842_decompress.c 82-100 (`rec` is `next_bits`) -/
def splitNextBits (rec : Nat → M Decomp (BitVec 64)) (n s : Nat) : M Decomp (BitVec 64) :=
  if n ≤ s then M.fail .EINVAL
  else do
    let tmp ← rec (n - s)
    let d ← rec s
    pure (d ||| tmp <<< s)

/-- The load of `next_bits`, 842_decompress.c 125-132 -/
def peekBits (e : Endian) (inp : List Byte) (pos bits : Nat) : Option (BitVec 64) :=
  if bits ≤ 8 then
    (inp[pos]?).map fun (v : Byte) => (v.setWidth 64 : BitVec 64) >>> (8 - bits)
  else if bits ≤ 16 then
    (load16 e inp pos).map fun v => ((swapBe16 e v).setWidth 64) >>> (16 - bits)
  else if bits ≤ 32 then
    (load32 e inp pos).map fun v => ((swapBe32 e v).setWidth 64) >>> (32 - bits)
  else
    (load64 e inp pos).map fun v => (swapBe64 e v) >>> (64 - bits)

/-- `next_bits`, 842_decompress.c 102-145 -/
def nextBitsF (e : Endian) : (fuel : Nat) → Nat → M Decomp (BitVec 64)
  | 0, _ => M.timeout
  | fuel + 1, n => do
    let p ← M.get
    let bits := p.bit + n
    if n > 64 then M.fail .EINVAL
    else if bits > 64 then splitNextBits (nextBitsF e fuel) n 32
    else if p.ilen < 8 ∧ bits > 32 ∧ bits ≤ 56 then splitNextBits (nextBitsF e fuel) n 16
    else if p.ilen < 4 ∧ bits > 16 ∧ bits ≤ 24 then splitNextBits (nextBitsF e fuel) n 8
    else if divRoundUp bits 8 > p.ilen then M.fail .EOVERFLOW
    else do
      let d ← M.access fun p => peekBits e p.inp p.pos bits
      M.modify fun p =>
        let bit := p.bit + n
        if bit > 7 then
          { p with pos := p.pos + bit / 8, ilen := p.ilen - bit / 8, bit := bit % 8 }
        else { p with bit := bit }
      pure (d &&& genmask (n - 1) 0)

/-- `next_bits`, /repo/src/serial/842_decompress.c 102-145. -/
def nextBits (e : Endian) (n : Nat) : M Decomp (BitVec 64) := nextBitsF e (n + 1) n

/-- Write `bs` at `p->out` and advance (`p->out += n; p->olen -= n`) (/repo/src/serial/842_decompress.c 159-174) -/
def emit (bs : List Byte) : M Decomp Unit := do
  M.update fun p => (writeBytes p.buf p.out bs).map fun b => { p with buf := b }
  M.modify fun p => { p with out := p.out + bs.length, olen := p.olen - bs.length }

/-- `do_data`, 842_decompress.c 147-177 -/
def doData (e : Endian) (n : Nat) : M Decomp Unit := do
  let p ← M.get
  if n > p.olen then M.fail .ENOSPC
  else do
    let v ← nextBits e (n * 8)
    if n = 2 then emit (wordBytes16 e (swapBe16 e (v.setWidth 16)))
    else if n = 4 then emit (wordBytes32 e (swapBe32 e (v.setWidth 32)))
    else if n = 8 then emit (wordBytes64 e (swapBe64 e v))
    else M.fail .EINVAL

/-- The offset computation of `__do_index`, 842_decompress.c 188-204 -/
def indexOffset (index size fsize total : Nat) : Nat :=
  let offset := index * size
  if total > fsize then
    let sec := roundDown total fsize
    let pos := total - sec
    if offset ≥ pos then offset + (sec - fsize) else offset + sec
  else offset

/-- `__do_index`, 842_decompress.c 179-231.  (`section -= fsize` does not wrap:
`total > fsize`.) -/
def doIndexN (e : Endian) (size bits fsize : Nat) : M Decomp Unit := do
  let p ← M.get
  let total := roundDown p.out 8
  let index ← nextBits e bits
  let offset := indexOffset index.toNat size fsize total
  if offset + size > total then M.fail .EINVAL
  else do
    let p ← M.get
    if size > p.olen then M.fail .ENOSPC
    else do
      let bs ← M.access fun p => readBytes p.buf offset size
      emit bs

/-- `do_index`, 842_decompress.c 233-245 with the sizes of lines 41-43 -/
def doIndex (e : Endian) (n : Nat) : M Decomp Unit :=
  if n = 2 then doIndexN e 2 8 (2 * 2 ^ 8)
  else if n = 4 then doIndexN e 4 9 (4 * 2 ^ 9)
  else if n = 8 then doIndexN e 8 8 (8 * 2 ^ 8)
  else M.fail .EINVAL

/-- `decomp_ops`, 842_decompress.c 45-72 (constants as in `compOps`) -/
def decompOps : List (List Nat) := [
  [0x28, 0x40, 0x40, 0x40],
  [0x24, 0x22, 0x12, 0x40],
  [0x24, 0x12, 0x22, 0x40],
  [0x24, 0x12, 0x12, 0x40],
  [0x24, 0x14, 0x40, 0x40],
  [0x22, 0x12, 0x24, 0x40],
  [0x22, 0x12, 0x22, 0x12],
  [0x22, 0x12, 0x12, 0x22],
  [0x22, 0x12, 0x12, 0x12],
  [0x22, 0x12, 0x14, 0x40],
  [0x12, 0x22, 0x24, 0x40],
  [0x12, 0x24, 0x12, 0x40],
  [0x12, 0x22, 0x12, 0x22],
  [0x12, 0x22, 0x12, 0x12],
  [0x12, 0x22, 0x14, 0x40],
  [0x12, 0x12, 0x24, 0x40],
  [0x12, 0x12, 0x22, 0x12],
  [0x12, 0x12, 0x12, 0x22],
  [0x12, 0x12, 0x12, 0x12],
  [0x12, 0x12, 0x14, 0x40],
  [0x14, 0x24, 0x40, 0x40],
  [0x14, 0x22, 0x12, 0x40],
  [0x14, 0x12, 0x22, 0x40],
  [0x14, 0x12, 0x12, 0x40],
  [0x14, 0x14, 0x40, 0x40],
  [0x18, 0x40, 0x40, 0x40]]

/-- The loop of `do_op`, 842_decompress.c 254-277 -/
def doActions (e : Endian) : List Nat → M Decomp Unit
  | [] => pure ()
  | op :: ops => do
    if op &&& 0x70 = 0x20 then doData e (op &&& 0x0f)
    else if op &&& 0x70 = 0x10 then doIndex e (op &&& 0x0f)
    else if op &&& 0x70 = 0x40 then pure ()
    else M.fail .EINVAL
    doActions e ops

/-- `do_op`, 842_decompress.c 247-280 -/
def doOp (e : Endian) (o : Nat) : M Decomp Unit :=
  if o ≥ 0x1a then M.fail .EINVAL
  else do
    let row ← M.access fun _ => decompOps[o]?
    doActions e row

/-- `while (rep-- > 0) memcpy(p.out, p.out - 8, 8) ...`, 842_decompress.c
340-344.  Reading before the start of the buffer is undefined. -/
def doRepeat : Nat → M Decomp Unit
  | 0 => pure ()
  | rep + 1 => do
    let bs ← M.access fun p =>
      if p.out < 8 then none else readBytes p.buf (p.out - 8) 8
    emit bs
    doRepeat rep

/-- `while (bytes-- > 0) ...`, 842_decompress.c 367-374 -/
def doShort (e : Endian) : Nat → M Decomp Unit
  | 0 => pure ()
  | bytes + 1 => do
    let tmp ← nextBits e 8
    emit [tmp.setWidth 8]
    doShort e bytes

/-- The `switch` of `sw842_decompress` for ops other than `OP_END`,
842_decompress.c 325-385 -/
def decompOp (e : Endian) (op : Nat) : M Decomp Unit :=
  if op = 0x1B then do
    let rep ← nextBits e 6
    let p ← M.get
    if p.out = 0 then M.fail .EINVAL
    else if (rep.toNat + 1) * 8 > p.olen then M.fail .ENOSPC
    else doRepeat (rep.toNat + 1)
  else if op = 0x1C then do
    let p ← M.get
    if 8 > p.olen then M.fail .ENOSPC
    else emit (List.replicate 8 0#8)
  else if op = 0x1D then do
    let bytes ← nextBits e 3
    if bytes.toNat = 0 ∨ bytes.toNat > 7 then M.fail .EINVAL
    else do
      let p ← M.get
      if bytes.toNat > p.olen then M.fail .ENOSPC
      else doShort e bytes.toNat
  else doOp e op

/-- The main loop, 842_decompress.c 316-386 -/
def decompLoop (e : Endian) : (fuel : Nat) → M Decomp Unit
  | 0 => M.timeout
  | fuel + 1 => do
    let op ← nextBits e 5
    if op.toNat = 0x1E then pure ()
    else do
      decompOp e op.toNat
      decompLoop e fuel

/-- The body of `sw842_decompress`, 842_decompress.c 316-408; returns the value
stored to `*olen`.  `addr` is the address of `out`, `total` the initial `*olen`. -/
def decompBody (e : Endian) (addr fuel total : Nat) : M Decomp Nat := do
  decompLoop e fuel
  let crc ← nextBits e 32
  let p ← M.get
  let want ← M.access fun p => crc32be e addr 0#32 p.buf (total - p.olen)
  if crc ≠ want.setWidth 64 then M.fail .EINVAL
  else if total - p.olen > 0xffffffff then M.fail .ENOSPC
  else pure (total - p.olen)

/-- State after 842_decompress.c 305-314 -/
def decompInit (inp buf : List Byte) : Decomp :=
  { inp := inp, pos := 0, bit := 0, ilen := inp.length, buf := buf, out := 0, olen := buf.length }

/-- `sw842_decompress(in, ilen, out, &olen)`, 842_decompress.c 297-411, with an
explicit bound on loop iterations. -/
def sw842DecompressF (fuel : Nat) (e : Endian) (addr : Nat) (inp buf : List Byte) : Call :=
  match decompBody e addr fuel buf.length (decompInit inp buf) with
  | .ok n p => .ret none n p.buf
  | .err er p => .ret (some er) 0 p.buf
  | .ub => .ub
  | .timeout => .timeout

/-- `sw842_decompress`: every iteration consumes at least 5 of the `8 * ilen`
bits. -/
def sw842Decompress (e : Endian) (addr : Nat) (inp buf : List Byte) : Call :=
  sw842DecompressF (8 * inp.length + 1) e addr inp buf

end Lib842
