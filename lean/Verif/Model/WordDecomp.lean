import Verif.Model.OptDecomp
/-!
# The decompressors with machine arithmetic (`/repo/src/serial/842_decompress.c`, `/repo/src/serial_optimized/842_decompress.cpp`)

`Model/SwDecomp` and `Model/OptDecomp` compute with natural numbers where the code computes with `uint8_t`, `int`,
`uint64_t` and `size_t` (64 bits).  Here all these variables are words of the width they have in the code, sums and differences wrap around, and
`round_down` is the mask of the macro.  Pointers stay offsets into their buffer.
-/

namespace Lib842

/-- `struct sw842_param_decomp`, 842_decompress.c 31-38 -/
structure DecompW where
  inp : List Byte
  pos : Nat
  bit : BitVec 8
  ilen : BitVec 64
  buf : List Byte
  out : Nat
  olen : BitVec 64
  deriving DecidableEq, Repr

/-- `DIV_ROUND_UP(bits, 8)`, kerneldeps.h 18, for a `uint8_t`: the macro computes in `int`, the comparison at
842_decompress.c 122 (842_compress.c 258) converts to `uint64_t` -/
def divRoundUp8W (bits : BitVec 8) : BitVec 64 := ((bits.setWidth 32 + 8#32 - 1#32).sdiv 8#32).signExtend 64

/-- `round_down(x, y)`, kerneldeps.h 14, 16, 842_decompress.cpp 49-50 -/
def roundDownW (x y : BitVec 64) : BitVec 64 := x &&& ~~~(y - 1#64)

/-- `__split_next_bits`, 842_decompress.c 82-100 -/
def splitNextBitsW (rec : BitVec 8 → M DecompW (BitVec 64)) (n s : BitVec 8) : M DecompW (BitVec 64) :=
  if n ≤ s then M.fail .EINVAL
  else do
    let tmp ← rec (n - s)
    let d ← rec s
    pure (d ||| tmp <<< s.toNat)

/-- `next_bits`, 842_decompress.c 102-145 -/
def nextBitsFW (e : Endian) : (fuel : Nat) → BitVec 8 → M DecompW (BitVec 64)
  | 0, _ => M.timeout
  | fuel + 1, n => do
    let p ← M.get
    let bits := p.bit + n
    if n > 64#8 then M.fail .EINVAL
    else if bits > 64#8 then splitNextBitsW (nextBitsFW e fuel) n 32#8
    else if p.ilen < 8#64 ∧ bits > 32#8 ∧ bits ≤ 56#8 then splitNextBitsW (nextBitsFW e fuel) n 16#8
    else if p.ilen < 4#64 ∧ bits > 16#8 ∧ bits ≤ 24#8 then splitNextBitsW (nextBitsFW e fuel) n 8#8
    else if divRoundUp8W bits > p.ilen then M.fail .EOVERFLOW
    else do
      let d ← M.access fun p => peekBits e p.inp p.pos bits.toNat
      M.modify fun p =>
        let bit := p.bit + n
        if bit > 7#8 then
          { p with pos := p.pos + (bit / 8#8).toNat, ilen := p.ilen - (bit / 8#8).setWidth 64, bit := bit % 8#8 }
        else { p with bit := bit }
      pure (d &&& genmask (n.toNat - 1) 0)

/-- `next_bits`, 842_decompress.c 102-145 -/
def nextBitsW (e : Endian) (n : BitVec 8) : M DecompW (BitVec 64) := nextBitsFW e (n.toNat + 1) n

/-- Write `bs` at `p->out` and advance, 842_decompress.c 159-174, 226-228 etc. -/
def emitW (bs : List Byte) : M DecompW Unit := do
  M.update fun p => (writeBytes p.buf p.out bs).map fun b => { p with buf := b }
  M.modify fun p => { p with out := p.out + bs.length, olen := p.olen - BitVec.ofNat 64 bs.length }

/-- `do_data`, 842_decompress.c 147-177 -/
def doDataW (e : Endian) (n : BitVec 8) : M DecompW Unit := do
  let p ← M.get
  if n.setWidth 64 > p.olen then M.fail .ENOSPC
  else do
    let v ← nextBitsW e (n * 8#8)
    if n = 2#8 then emitW (wordBytes16 e (swapBe16 e (v.setWidth 16)))
    else if n = 4#8 then emitW (wordBytes32 e (swapBe32 e (v.setWidth 32)))
    else if n = 8#8 then emitW (wordBytes64 e (swapBe64 e v))
    else M.fail .EINVAL

/-- The offset computation of `__do_index`, 842_decompress.c 188-204, and of `do_index`, 842_decompress.cpp 112-128 -/
def indexOffsetW (index size fsize total : BitVec 64) : BitVec 64 :=
  let offset := index * size
  if total > fsize then
    let sec := roundDownW total fsize
    let pos := total - sec
    if offset ≥ pos then offset + (sec - fsize) else offset + sec
  else offset

/-- `__do_index`, 842_decompress.c 179-231 -/
def doIndexNW (e : Endian) (size bits : BitVec 8) (fsize : BitVec 64) : M DecompW Unit := do
  let p ← M.get
  let total := roundDownW (BitVec.ofNat 64 p.out) 8#64
  let index ← nextBitsW e bits
  let offset := indexOffsetW index (size.setWidth 64) fsize total
  if offset + size.setWidth 64 > total then M.fail .EINVAL
  else do
    let p ← M.get
    if size.setWidth 64 > p.olen then M.fail .ENOSPC
    else do
      let bs ← M.access fun p => readBytes p.buf offset.toNat size.toNat
      emitW bs

/-- `do_index`, 842_decompress.c 233-245 with the sizes of lines 41-43 -/
def doIndexW (e : Endian) (n : BitVec 8) : M DecompW Unit :=
  if n = 2#8 then doIndexNW e 2#8 8#8 512#64
  else if n = 4#8 then doIndexNW e 4#8 9#8 2048#64
  else if n = 8#8 then doIndexNW e 8#8 8#8 2048#64
  else M.fail .EINVAL

/-- The loop of `do_op`, 842_decompress.c 254-277 -/
def doActionsW (e : Endian) : List Nat → M DecompW Unit
  | [] => pure ()
  | op :: ops => do
    if op &&& 0x70 = 0x20 then doDataW e (BitVec.ofNat 8 (op &&& 0x0f))
    else if op &&& 0x70 = 0x10 then doIndexW e (BitVec.ofNat 8 (op &&& 0x0f))
    else if op &&& 0x70 = 0x40 then pure ()
    else M.fail .EINVAL
    doActionsW e ops

/-- `do_op`, 842_decompress.c 247-280 -/
def doOpW (e : Endian) (o : BitVec 8) : M DecompW Unit :=
  if o ≥ 0x1a#8 then M.fail .EINVAL
  else do
    let row ← M.access fun _ => decompOps[o.toNat]?
    doActionsW e row

/-- `while (rep-- > 0) memcpy(p.out, p.out - 8, 8) ...`, 842_decompress.c 340-344 -/
def doRepeatW : Nat → M DecompW Unit
  | 0 => pure ()
  | rep + 1 => do
    let bs ← M.access fun p =>
      if p.out < 8 then none else readBytes p.buf (p.out - 8) 8
    emitW bs
    doRepeatW rep

/-- `while (bytes-- > 0) ...`, 842_decompress.c 367-374 -/
def doShortW (e : Endian) : Nat → M DecompW Unit
  | 0 => pure ()
  | bytes + 1 => do
    let tmp ← nextBitsW e 8#8
    emitW [tmp.setWidth 8]
    doShortW e bytes

/-- The `switch` of `sw842_decompress` for ops other than `OP_END`, 842_decompress.c 325-385 -/
def decompOpW (e : Endian) (op : BitVec 64) : M DecompW Unit :=
  if op = 0x1B#64 then do
    let rep ← nextBitsW e 6#8
    let p ← M.get
    if p.out = 0 then M.fail .EINVAL
    else if (rep + 1#64) * 8#64 > p.olen then M.fail .ENOSPC
    else doRepeatW (rep + 1#64).toNat
  else if op = 0x1C#64 then do
    let p ← M.get
    if 8#64 > p.olen then M.fail .ENOSPC
    else emitW (List.replicate 8 0#8)
  else if op = 0x1D#64 then do
    let bytes ← nextBitsW e 3#8
    if bytes = 0#64 ∨ bytes > 7#64 then M.fail .EINVAL
    else do
      let p ← M.get
      if bytes > p.olen then M.fail .ENOSPC
      else doShortW e bytes.toNat
  else doOpW e (op.setWidth 8)

/-- The main loop, 842_decompress.c 316-386 -/
def decompLoopW (e : Endian) : (fuel : Nat) → M DecompW Unit
  | 0 => M.timeout
  | fuel + 1 => do
    let op ← nextBitsW e 5#8
    if op = 0x1E#64 then pure ()
    else do
      decompOpW e op
      decompLoopW e fuel

/-- The body of `sw842_decompress`, 842_decompress.c 316-408 -/
def decompBodyW (e : Endian) (addr fuel : Nat) (total : BitVec 64) : M DecompW (BitVec 64) := do
  decompLoopW e fuel
  let crc ← nextBitsW e 32#8
  let p ← M.get
  let want ← M.access fun p => crc32be e addr 0#32 p.buf (total - p.olen).toNat
  if crc ≠ want.setWidth 64 then M.fail .EINVAL
  else if total - p.olen > 0xffffffff#64 then M.fail .ENOSPC
  else pure (total - p.olen)

/-- State after 842_decompress.c 305-314; `ilen` and `*olen` are `size_t` -/
def decompInitW (inp buf : List Byte) : DecompW :=
  { inp := inp, pos := 0, bit := 0#8, ilen := BitVec.ofNat 64 inp.length, buf := buf, out := 0, olen := BitVec.ofNat 64 buf.length }

/-- `sw842_decompress(in, ilen, out, &olen)`, 842_decompress.c 297-411 -/
def sw842DecompressW (e : Endian) (addr : Nat) (inp buf : List Byte) : Call :=
  match decompBodyW e addr (8 * inp.length + 1) (BitVec.ofNat 64 buf.length) (decompInitW inp buf) with
  | .ok n p => .ret none n.toNat p.buf
  | .err er p => .ret (some er) 0 p.buf
  | .ub => .ub
  | .timeout => .timeout

/-! ## The optimised decompressor -/

/-- `struct sw842_param_decomp`, 842_decompress.cpp 30-42 -/
structure ODecompW where
  inp : List Byte
  word : Nat
  ilen : BitVec 64
  buf : List Byte
  out : Nat
  olen : BitVec 64
  errorcode : Option Errno
  bits : BitVec 8
  buffer : BitVec 64
  deriving DecidableEq, Repr

/-- `if (p->errorcode == 0) p->errorcode = -er;`, 842_decompress.cpp 60-61, 132-136 -/
def ODecompW.setError (er : Errno) (p : ODecompW) : ODecompW :=
  match p.errorcode with
  | none => { p with errorcode := some er }
  | some _ => p

/-- `read_word`, 842_decompress.cpp 56-67; the difference of the pointers is converted to `size_t` by the multiplication -/
def readWordW (e : Endian) : M ODecompW (BitVec 64) := do
  let p ← M.get
  if (BitVec.ofNat 64 p.word + 1#64) * 8#64 > p.ilen then do
    M.modify (ODecompW.setError .EINVAL)
    pure 0#64
  else do
    let w ← M.access fun p => load64 e p.inp (8 * p.word)
    M.modify fun p => { p with word := p.word + 1 }
    pure (swapBe64 e w)

/-- `read_bits`, 842_decompress.cpp 70-86: shift counts are computed in `int`, a `uint8_t` is not negative -/
def readBitsW (e : Endian) (n : BitVec 8) : M ODecompW (BitVec 64) := do
  let p ← M.get
  let value ← M.access fun _ => cshr p.buffer (64 - (n.toNat : Int))
  if p.bits < n then do
    let w ← readWordW e
    let value' ← M.access fun _ => cshr w (64 - ((n.toNat : Int) - p.bits.toNat))
    let shifted ← M.access fun _ => cshl w ((n.toNat : Int) - p.bits.toNat - 1)
    let bits := p.bits + (64#8 - n)
    M.modify fun p => { p with buffer := (shifted <<< 1) * (if bits > 0#8 then 1#64 else 0#64), bits := bits }
    pure (value ||| value')
  else do
    M.modify fun p => { p with bits := p.bits - n }
    let b ← M.access fun p => cshl p.buffer n.toNat
    M.modify fun p => { p with buffer := b }
    pure value

/-- Write `bs` at `p->out` and advance, 842_decompress.cpp 94-104, 141-142 -/
def oemitW (bs : List Byte) : M ODecompW Unit := do
  M.update fun p => (writeBytes p.buf p.out bs).map fun b => { p with buf := b }
  M.modify fun p => { p with out := p.out + bs.length }

/-- `do_data<N>`, 842_decompress.cpp 89-105 -/
def odoDataW (e : Endian) (n : Nat) (data : BitVec 64) : M ODecompW Unit :=
  if n = 2 then oemitW (wordBytes16 e (swapBe16 e (data.setWidth 16)))
  else if n = 4 then oemitW (wordBytes32 e (swapBe32 e (data.setWidth 32)))
  else if n = 8 then oemitW (wordBytes64 e (swapBe64 e data))
  else M.modify fun p => { p with out := p.out + n }

/-- `do_index`, 842_decompress.cpp 107-143 -/
def odoIndexW (size : BitVec 8) (index fsize : BitVec 64) : M ODecompW Unit := do
  let p ← M.get
  let total := roundDownW (BitVec.ofNat 64 p.out) 8#64
  let offset := indexOffsetW index (size.setWidth 64) fsize total
  if offset + size.setWidth 64 > total then M.modify (ODecompW.setError .EINVAL)
  else do
    let bs ← M.access fun p => readBytes p.buf offset.toNat size.toNat
    oemitW bs

/-- Execute one statement of a case, 842_decompress.cpp 325-483 -/
def optStepW (e : Endian) (rep : BitVec 64) : OptStep → M ODecompW Unit
  | .data n shift width => do
    let v ← M.access fun _ => field rep shift width
    odoDataW e n v
  | .index n shift width fsize => do
    let v ← M.access fun _ => field rep shift width
    odoIndexW (BitVec.ofNat 8 n) v (BitVec.ofNat 64 fsize)

/-- Execute the statements of a case, 842_decompress.cpp 325-483 -/
def optStepsW (e : Endian) (rep : BitVec 64) : List OptStep → M ODecompW Unit
  | [] => pure ()
  | s :: ss => do
    optStepW e rep s
    optStepsW e rep ss

/-- `if (p.errorcode != 0) return p.errorcode;`, 842_decompress.cpp 306-307 -/
def checkErrorW : M ODecompW Unit := do
  let p ← M.get
  match p.errorcode with
  | none => pure ()
  | some er => M.fail er

/-- `while (rep-- > 0) { memcpy(p.out, p.out - 8, 8); p.out += 8; }`, 842_decompress.cpp 501-504 -/
def odoRepeatW : Nat → M ODecompW Unit
  | 0 => pure ()
  | rep + 1 => do
    let bs ← M.access fun p =>
      if p.out < 8 then none else readBytes p.buf (p.out - 8) 8
    oemitW bs
    odoRepeatW rep

/-- The `switch` for ops other than `OP_END`, 842_decompress.cpp 323-547 -/
def odoOpW (e : Endian) (op : BitVec 64) : M ODecompW Unit :=
  match optSwitch[op.toNat]? with
  | some (n, steps) => do
    let rep ← readBitsW e (BitVec.ofNat 8 n)
    optStepsW e rep steps
  | none =>
    if op = 0x1B#64 then do
      let rep ← readBitsW e 6#8
      checkErrorW
      let p ← M.get
      if p.out = 0 then M.fail .EINVAL
      else if BitVec.ofNat 64 p.out + (rep + 1#64) * 8#64 > p.olen then M.fail .ENOSPC
      else odoRepeatW (rep + 1#64).toNat
    else if op = 0x1C#64 then oemitW (List.replicate 8 0#8)
    else M.fail .EINVAL

/-- One iteration of the main loop, 842_decompress.cpp 303-545 -/
def optIterW (e : Endian) : M ODecompW Bool := do
  let op ← readBitsW e 5#8
  checkErrorW
  let p ← M.get
  if (op < 0x1a#64 ∨ op = 0x1C#64) ∧ BitVec.ofNat 64 p.out + 8#64 > p.olen then M.fail .ENOSPC
  else if op = 0x1E#64 then pure true
  else do
    odoOpW e op
    checkErrorW
    pure false

/-- 842_decompress.cpp 302-571 -/
def optBodyW (e : Endian) (aout fuel : Nat) : M ODecompW (BitVec 64) := do
  M.doWhile (optIterW e) fuel
  let crc ← readBitsW e 32#8
  checkErrorW
  let p ← M.get
  let want ← M.access fun p => crc32be e aout 0#32 p.buf (BitVec.ofNat 64 p.out).toNat
  if crc ≠ want.setWidth 64 then M.fail .EINVAL
  else pure (BitVec.ofNat 64 p.out)

/-- State after 842_decompress.cpp 286-298 -/
def optInitW (inp buf : List Byte) : ODecompW :=
  { inp := inp, word := 0, ilen := BitVec.ofNat 64 inp.length, buf := buf, out := 0, olen := BitVec.ofNat 64 buf.length,
    errorcode := none, bits := 0#8, buffer := 0#64 }

/-- `optsw842_decompress(in, ilen, out, &olen)`, 842_decompress.cpp 277-572 -/
def optsw842DecompressW (e : Endian) (ain aout : Nat) (inp buf : List Byte) : Call :=
  if ain % 8 ≠ 0 ∨ aout % 8 ≠ 0 then sw842DecompressW e aout inp buf
  else
    match optBodyW e aout (8 * inp.length + 1) (optInitW inp buf) with
    | .ok n p => .ret none n.toNat p.buf
    | .err er p => .ret (some er) 0 p.buf
    | .ub => .ub
    | .timeout => .timeout

end Lib842
