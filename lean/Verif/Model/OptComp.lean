import Verif.Model.BitWindow
import Verif.Model.SwComp
/-!
# Optimized compressor (`/repo/src/serial_optimized/842_compress.cpp`, `bitstream.cpp`)

Modelled in the configuration the repository builds: `LIB842_CUDA_STRICT` defined,
`BRANCH_FREE` 0 and `DISABLE_CRC` not defined (`842-internal.h`).  Messages printed to
`stderr`, `malloc` failure and `free` are omitted.  The exception
`bitstream_full_exception` is the error outcome `ENOSPC`, which is what its only handler
returns.
-/

namespace Lib842

/-! ## The bit stream -/

/-- `struct bitstream`, bitstream.cpp 18-24: `ptr` and `endw` are `ptr - begin` and
`end - begin`, `buf` the whole output buffer. -/
structure BStream where
  bits : Nat
  buffer : BitVec 64
  ptr : Nat
  endw : Nat
  buf : List Byte
  deriving DecidableEq, Repr

/-- `stream_write_word`, bitstream.cpp 29-35 -/
def streamWriteWord (e : Endian) (value : BitVec 64) : M BStream Unit := do
  let s ← M.get
  if s.ptr = s.endw then M.fail .ENOSPC
  else do
    M.update fun s => (store64 e s.buf (8 * s.ptr) (swapBe64 e value)).map fun b => { s with buf := b }
    M.modify fun s => { s with ptr := s.ptr + 1 }

/-- `stream_write_bits`, bitstream.cpp 46-67; `bits` and `n` are `uint8_t`. -/
def streamWriteBits (e : Endian) (value : BitVec 64) (n : Nat) : M BStream Unit := do
  let value ← M.access fun _ => cshl value (64 - n)
  let s ← M.get
  let shifted ← M.access fun _ => cshr value s.bits
  M.modify fun s => { s with buffer := s.buffer ||| shifted, bits := (s.bits + n) % 2 ^ 8 }
  let s ← M.get
  if s.bits ≥ 64 then do
    M.modify fun s => { s with bits := s.bits - 64 }
    let s ← M.get
    streamWriteWord e s.buffer
    let b ← M.access fun _ => cshl (value <<< 1) (n - 1 - s.bits)
    M.modify fun s => { s with buffer := b }
  else pure ()

/-- The loop of `stream_pad`, bitstream.cpp 79-82; `bits` is a `uint8_t`, so three
iterations always suffice. -/
def streamPadLoop (e : Endian) : (fuel : Nat) → M BStream Unit
  | 0 => M.timeout
  | fuel + 1 => do
    let s ← M.get
    if s.bits ≥ 64 then do
      streamWriteWord e s.buffer
      M.modify fun s => { s with buffer := 0#64, bits := s.bits - 64 }
      streamPadLoop e fuel
    else pure ()

/-- `stream_pad`, bitstream.cpp 77-83 -/
def streamPad (e : Endian) (n : Nat) : M BStream Unit := do
  M.modify fun s => { s with bits := (s.bits + n) % 2 ^ 8 }
  streamPadLoop e 4

/-- `stream_flush`, bitstream.cpp 86-91 -/
def streamFlush (e : Endian) : M BStream Unit := do
  let s ← M.get
  let bits := (64 - s.bits) % 64
  if bits ≠ 0 then streamPad e bits else pure ()

/-- `stream_open` and `stream_rewind`, bitstream.cpp 69-74, 94-104 -/
def streamOpen (buf : List Byte) : BStream :=
  { bits := 0, buffer := 0#64, ptr := 0, endw := buf.length / 8, buf := buf }

/-! ## Dictionaries -/

/-- `struct sw842_param`, 842_compress.cpp 37-58, without `stream`: `pos` is
`p->in - p->instart`.  `int16_t` hash table entries are kept as 16-bit words. -/
structure OCore where
  inp : List Byte
  pos : Nat
  ilen : Nat
  dai : Nat → BitVec 64
  hashes : Nat → BitVec 64
  validity : Nat → BitVec 16
  keys : Nat → BitVec 16
  ht16 : Nat → BitVec 16
  ht32 : Nat → BitVec 16
  ht64 : Nat → BitVec 16
  fifo16 : Nat → BitVec 16
  fifo32 : Nat → BitVec 32
  fifo64 : Nat → BitVec 64

/-- The whole of `struct sw842_param` -/
structure OComp where
  core : OCore
  s : BStream

/-- A step on the stream (part of the model only, no counterpart in /repo; calls of `stream_write_bits`, /repo/src/serial_optimized/842_compress.cpp 155 etc.) -/
def liftS (x : M BStream α) : M OComp α := fun p =>
  match x p.s with
  | .ok a s => .ok a { p with s := s }
  | .err er s => .err er { p with s := s }
  | .ub => .ub
  | .timeout => .timeout

/-- A step on the other fields (part of the model only, no counterpart in /repo) -/
def liftC (f : OCore → Option OCore) : M OComp Unit :=
  M.update fun p => (f p.core).map fun c => { p with core := c }

/-- `PRIME64`, 842_compress.cpp 60 -/
def PRIME64 : BitVec 64 := 11400714785074694791#64

/-- One line of `hash`, 842_compress.cpp 64-73 -/
def hashOne (dictBits : Nat) (value : BitVec 64) : BitVec 64 := (PRIME64 * value) >>> (64 - dictBits)

/-- `hash`, 842_compress.cpp 64-73 -/
def hashAll (c : OCore) : OCore :=
  { c with hashes := fun k =>
      if k < 4 then hashOne 10 (c.dai k)
      else if k < 6 then hashOne 11 (c.dai k)
      else if k = 6 then hashOne 10 (c.dai k)
      else c.hashes k }

/-- Lines `k` of 81-111 of `find_index`: `index[k]` and `validity[k]`.  `fifo[index]` is
only read if `index >= 0`; the comparison is done in 64 bits. -/
def probe {w : Nat} (tabSize fifoSize : Nat) (ht : Nat → BitVec 16) (fifo : Nat → BitVec w)
    (h d : BitVec 64) : Option (BitVec 16 × BitVec 16) :=
  match arrGet tabSize ht h.toNat with
  | none => none
  | some index =>
    if 0 ≤ index.toInt then
      match arrGet fifoSize fifo index.toNat with
      | none => none
      | some x => some (index, 0xFFFF#16 &&& (if x.setWidth 64 = d then 0xFFFF#16 else 0#16))
    else some (index, 0#16 &&& 0#16)

/-- The constants of lines 121-127 -/
def keyConst : List (BitVec 16) := [13 * 3, 13 * 5, 13 * 7, 13 * 11, 53 * 3, 53 * 5, 149 * 3]

/-- Lines `k` of `find_index`, 842_compress.cpp 75-128.  `validity & index` is computed
in `int`. -/
def findSlot (k : Nat) (c : OCore) : Option OCore :=
  match (if k < 4 then probe 1024 256 c.ht16 c.fifo16 (c.hashes k) (c.dai k)
         else if k < 6 then probe 2048 512 c.ht32 c.fifo32 (c.hashes k) (c.dai k)
         else probe 1024 256 c.ht64 c.fifo64 (c.hashes k) (c.dai k)), keyConst[k]? with
  | some (index, v), some kc =>
    some { c with
      validity := upd c.validity k v
      dai := upd c.dai (7 + k) ((v.setWidth 32 &&& index.signExtend 32).signExtend 64)
      keys := upd c.keys k (kc &&& v) }
  | _, _ => none

/-- `find_index`, 842_compress.cpp 75-128.  The lines for the seven values are
independent of each other; they are taken value by value. -/
def findIndex (c : OCore) : Option OCore := do
  let c ← findSlot 0 c
  let c ← findSlot 1 c
  let c ← findSlot 2 c
  let c ← findSlot 3 c
  let c ← findSlot 4 c
  let c ← findSlot 5 c
  findSlot 6 c

/-- `ops_dict`, `/repo/src/common/opcodes.h` 6-231 -/
def opsDict : List Nat := [
  0, 0, 0, 0, 0, 0, 0, 0, 0, 0, 0, 0, 0, 0, 0, 0,
  0, 0, 0, 0xa, 0, 0, 0, 0, 0, 0, 0, 0, 0, 0, 0, 0,
  0x5, 0, 0, 0, 0, 0, 0, 0, 0, 0, 0, 0, 0, 0x2, 0, 0,
  0, 0, 0, 0, 0xf, 0, 0, 0, 0, 0, 0, 0, 0, 0, 0, 0,
  0, 0xc, 0, 0, 0, 0, 0, 0x1, 0, 0, 0, 0, 0, 0, 0x7, 0x14,
  0, 0, 0, 0, 0, 0, 0, 0, 0, 0, 0, 0xb, 0, 0, 0, 0,
  0, 0x11, 0, 0, 0, 0, 0, 0, 0x6, 0, 0, 0, 0, 0, 0, 0,
  0, 0, 0, 0, 0, 0x3, 0, 0, 0, 0, 0, 0x10, 0, 0x16, 0, 0,
  0, 0, 0, 0, 0x4, 0, 0, 0, 0xd, 0, 0, 0, 0, 0, 0, 0,
  0, 0, 0, 0, 0, 0x8, 0, 0x15, 0xe, 0, 0, 0, 0, 0, 0, 0,
  0, 0, 0, 0, 0, 0x9, 0, 0, 0, 0x12, 0, 0, 0, 0, 0, 0,
  0, 0, 0, 0, 0, 0, 0, 0, 0x13, 0, 0, 0, 0, 0, 0, 0,
  0, 0, 0, 0, 0x17, 0, 0, 0, 0, 0, 0, 0, 0, 0, 0, 0,
  0, 0, 0, 0, 0x18, 0, 0, 0, 0, 0, 0, 0, 0, 0, 0, 0x19]

/-- `max`, 842_compress.cpp 130-133 -/
def max16 (a b : BitVec 16) : BitVec 16 := if a.toNat > b.toNat then a else b

/-- `get_template`, 842_compress.cpp 135-146 -/
def getTemplate (keys : Nat → BitVec 16) : Option Nat :=
  let former := max16 (keys 4) (keys 0 + keys 1)
  let latter := max16 (keys 5) (keys 2 + keys 3)
  let templateKey := max16 (keys 6) (former + latter)
  opsDict[(templateKey >>> 1).toNat]?

/-! ## Emitting templates -/

/-- Operands of the expressions in `add_template`: the template code, an element of
`dataAndIndices`, or `swap_be_to_native32(read32(p->in + 2))` -/
inductive OptSrc
  | code
  | dai (i : Nat)
  | mid
  deriving DecidableEq, Repr

/-- The `case`s 0x01 .. 0x19 of `add_template`, 842_compress.cpp 158-363: the number of
bits written, and the operands with their left shifts, in source order. -/
def optRows : List (Nat × List (OptSrc × Nat)) := [
  /- 0x01 -/ (61, [(.code, 56), (.dai 4, 24), (.dai 2, 8), (.dai 10, 0)]),
  /- 0x02 -/ (61, [(.code, 56), (.dai 4, 24), (.dai 9, 16), (.dai 3, 0)]),
  /- 0x03 -/ (53, [(.code, 48), (.dai 4, 16), (.dai 9, 8), (.dai 10, 0)]),
  /- 0x04 -/ (46, [(.code, 41), (.dai 4, 9), (.dai 12, 0)]),
  /- 0x05 -/ (61, [(.code, 56), (.dai 0, 40), (.dai 8, 32), (.dai 5, 0)]),
  /- 0x06 -/ (53, [(.code, 48), (.dai 0, 32), (.dai 8, 24), (.dai 2, 8), (.dai 10, 0)]),
  /- 0x07 -/ (53, [(.code, 48), (.dai 0, 32), (.dai 8, 24), (.dai 9, 16), (.dai 3, 0)]),
  /- 0x08 -/ (45, [(.code, 40), (.dai 0, 24), (.dai 8, 16), (.dai 9, 8), (.dai 10, 0)]),
  /- 0x09 -/ (38, [(.code, 33), (.dai 0, 17), (.dai 8, 9), (.dai 12, 0)]),
  /- 0x0a -/ (61, [(.code, 56), (.dai 7, 48), (.dai 1, 32), (.dai 5, 0)]),
  /- 0x0b -/ (53, [(.code, 48), (.dai 7, 40), (.mid, 8), (.dai 10, 0)]),
  /- 0x0c -/ (53, [(.code, 48), (.dai 7, 40), (.dai 1, 24), (.dai 9, 16), (.dai 3, 0)]),
  /- 0x0d -/ (45, [(.code, 40), (.dai 7, 32), (.dai 1, 16), (.dai 9, 8), (.dai 10, 0)]),
  /- 0x0e -/ (38, [(.code, 33), (.dai 7, 25), (.dai 1, 9), (.dai 12, 0)]),
  /- 0x0f -/ (53, [(.code, 48), (.dai 7, 40), (.dai 8, 32), (.dai 5, 0)]),
  /- 0x10 -/ (45, [(.code, 40), (.dai 7, 32), (.dai 8, 24), (.dai 2, 8), (.dai 10, 0)]),
  /- 0x11 -/ (45, [(.code, 40), (.dai 7, 32), (.dai 8, 24), (.dai 9, 16), (.dai 3, 0)]),
  /- 0x12 -/ (37, [(.code, 32), (.dai 7, 24), (.dai 8, 16), (.dai 9, 8), (.dai 10, 0)]),
  /- 0x13 -/ (30, [(.code, 25), (.dai 7, 17), (.dai 8, 9), (.dai 12, 0)]),
  /- 0x14 -/ (46, [(.code, 41), (.dai 11, 32), (.dai 5, 0)]),
  /- 0x15 -/ (38, [(.code, 33), (.dai 11, 24), (.dai 2, 8), (.dai 10, 0)]),
  /- 0x16 -/ (38, [(.code, 33), (.dai 11, 24), (.dai 9, 16), (.dai 3, 0)]),
  /- 0x17 -/ (30, [(.code, 25), (.dai 11, 16), (.dai 9, 8), (.dai 10, 0)]),
  /- 0x18 -/ (23, [(.code, 18), (.dai 11, 9), (.dai 12, 0)]),
  /- 0x19 -/ (13, [(.code, 8), (.dai 13, 0)])]

/-- Value of an operand (/repo/src/serial_optimized/842_compress.cpp 156-363) -/
def OptSrc.eval (e : Endian) (code : Nat) (c : OCore) : OptSrc → Option (BitVec 64)
  | .code => some (BitVec.ofNat 64 code)
  | .dai i => arrGet 16 c.dai i
  | .mid => (load32 e c.inp (c.pos + 2)).map fun v => (swapBe32 e v).setWidth 64

/-- The `|` of the shifted operands (/repo/src/serial_optimized/842_compress.cpp 159-363) -/
def orShifted (e : Endian) (code : Nat) (c : OCore) : List (OptSrc × Nat) → Option (BitVec 64)
  | [] => some 0#64
  | (src, sh) :: rest => do
    let v ← src.eval e code c
    let v ← cshl v sh
    let r ← orShifted e code c rest
    some (v ||| r)

/-- `add_template<code>`, 842_compress.cpp 148-369 and the `switch` of `process_next`,
474-555 (the default branch only prints a message) -/
def oaddTemplate (e : Endian) (code : Nat) : M OComp Unit := do
  let p ← M.get
  if code = 0 then do
    liftS (streamWriteBits e 0#64 5)
    liftS (streamWriteBits e (p.core.dai 6) 64)
  else
    match optRows[code - 1]? with
    | some (n, fields) => do
      let out ← M.access fun _ => orShifted e code p.core fields
      liftS (streamWriteBits e out n)
    | none => pure ()

/-- `add_repeat_template`, 842_compress.cpp 371-377; `r` is a `uint8_t` -/
def oaddRepeat (e : Endian) (r : Nat) : M BStream Unit :=
  streamWriteBits e ((0x1B#64 <<< 6) ||| BitVec.ofNat 64 ((r + 255) % 2 ^ 8)) 11

/-! ## The main loop -/

/-- `get_next_data`, 842_compress.cpp 389-402 -/
def ogetNextData (e : Endian) (c : OCore) : Option OCore := do
  let d0 ← load16 e c.inp c.pos
  let d1 ← load16 e c.inp (c.pos + 2)
  let d2 ← load16 e c.inp (c.pos + 4)
  let d3 ← load16 e c.inp (c.pos + 6)
  let d4 ← load32 e c.inp c.pos
  let d5 ← load32 e c.inp (c.pos + 4)
  let d6 ← load64 e c.inp c.pos
  let f := upd c.dai 0 ((swapBe16 e d0).setWidth 64)
  let f := upd f 1 ((swapBe16 e d1).setWidth 64)
  let f := upd f 2 ((swapBe16 e d2).setWidth 64)
  let f := upd f 3 ((swapBe16 e d3).setWidth 64)
  let f := upd f 4 ((swapBe32 e d4).setWidth 64)
  let f := upd f 5 ((swapBe32 e d5).setWidth 64)
  let f := upd f 6 (swapBe64 e d6)
  some { c with dai := f }

/-- `p->rollingFifoN[i] = p->dataAndIndices[k]`, truncating (/repo/src/serial_optimized/842_compress.cpp 414-420) -/
def fifoSet {w : Nat} (n : Nat) (fifo : Nat → BitVec w) (i : Nat) (d : BitVec 64) :
    Option (Nat → BitVec w) := arrSet n fifo i (d.setWidth w)

/-- `p->hashTableN[p->hashes[k]] = i` (/repo/src/serial_optimized/842_compress.cpp 422-428) -/
def htSet (n : Nat) (ht : Nat → BitVec 16) (h : BitVec 64) (i : Nat) : Option (Nat → BitVec 16) :=
  arrSet n ht h.toNat (BitVec.ofNat 16 i)

/-- `update_hashtables`, 842_compress.cpp 407-429 -/
def oupdateHashtables (c : OCore) : Option OCore := do
  let i64 := (c.pos >>> 3) % 2 ^ 8
  let i32 := (c.pos >>> 2) % 2 ^ 9
  let i16 := (c.pos >>> 1) % 2 ^ 8
  let f16 ← fifoSet 256 c.fifo16 i16 (c.dai 0)
  let f16 ← fifoSet 256 f16 (i16 + 1) (c.dai 1)
  let f16 ← fifoSet 256 f16 (i16 + 2) (c.dai 2)
  let f16 ← fifoSet 256 f16 (i16 + 3) (c.dai 3)
  let f32 ← fifoSet 512 c.fifo32 i32 (c.dai 4)
  let f32 ← fifoSet 512 f32 (i32 + 1) (c.dai 5)
  let f64 ← fifoSet 256 c.fifo64 i64 (c.dai 6)
  let h16 ← htSet 1024 c.ht16 (c.hashes 0) i16
  let h16 ← htSet 1024 h16 (c.hashes 1) (i16 + 1)
  let h16 ← htSet 1024 h16 (c.hashes 2) (i16 + 2)
  let h16 ← htSet 1024 h16 (c.hashes 3) (i16 + 3)
  let h32 ← htSet 2048 c.ht32 (c.hashes 4) i32
  let h32 ← htSet 2048 h32 (c.hashes 5) (i32 + 1)
  let h64 ← htSet 1024 c.ht64 (c.hashes 6) i64
  some { c with fifo16 := f16, fifo32 := f32, fifo64 := f64, ht16 := h16, ht32 := h32, ht64 := h64 }

/-- `process_next`, 842_compress.cpp 434-557.  The fields cleared at 438-452 are all
overwritten by `find_index`. -/
def oprocessNext (e : Endian) : M OComp Unit := do
  liftC fun c => some { c with validity := fun k => if k < 7 then 0#16 else c.validity k
                               keys := fun k => if k < 7 then 0#16 else c.keys k }
  liftC fun c => some (hashAll c)
  liftC findIndex
  let p ← M.get
  let templateKey ← M.access fun _ => getTemplate p.core.keys
  oaddTemplate e templateKey

/-- The two functions of 842_compress.cpp that depend on `BRANCH_FREE`: `get_next_data`
(389-402) and `process_next` (434-557) -/
structure OConf where
  getNextData : OCore → Option OCore
  processNext : M OComp Unit

/-- The configuration that is built (`BRANCH_FREE` 0) -/
def OConf.std (e : Endian) : OConf := ⟨ogetNextData e, oprocessNext e⟩

/-- One iteration of the main loop after `next` and the data have been loaded,
842_compress.cpp 619-643; returns the new `repeat_count` (a `uint8_t`). -/
def ocompStep (cf : OConf) (e : Endian) (next last : BitVec 64) (rc : Nat) : M OComp Nat := do
  let rc := if next = last then (rc + 1) % 2 ^ 8 else rc
  if next = last ∧ rc ≤ 0x3f then pure rc
  else if rc ≠ 0 then do
    liftS (oaddRepeat e rc)
    if next = last then pure 0
    else do
      if next = 0#64 then liftS (streamWriteBits e 0x1C#64 5) else cf.processNext
      pure 0
  else do
    if next = 0#64 then liftS (streamWriteBits e 0x1C#64 5) else cf.processNext
    pure rc

/-- The main loop, 842_compress.cpp 611-651 -/
def ocompLoop (cf : OConf) (e : Endian) : (fuel : Nat) → (last : BitVec 64) → (rc : Nat) → M OComp Nat
  | 0, _, _ => M.timeout
  | fuel + 1, last, rc => do
    let p ← M.get
    if p.core.ilen > 7 then do
      let next ← M.access fun _ => load64 e p.core.inp p.core.pos
      liftC cf.getNextData
      let rc ← ocompStep cf e next last rc
      liftC oupdateHashtables
      liftC fun c => some { c with pos := c.pos + 8, ilen := c.ilen - 8 }
      ocompLoop cf e fuel next rc
    else pure rc

/-- The `try` block of `optsw842_compress`, 842_compress.cpp 603-671; returns the value
of `stream_size` (bitstream.cpp 40-43).  `addr` is the address of `in`. -/
def ocompBody (cf : OConf) (e : Endian) (addr fuel : Nat) (inp : List Byte) : M OComp Nat := do
  let p ← M.get
  let first ← M.access fun _ => load64 e p.core.inp p.core.pos
  let rc ← ocompLoop cf e fuel (~~~ first) 0
  if rc ≠ 0 then liftS (oaddRepeat e rc) else pure ()
  liftS (streamWriteBits e 0x1E#64 5)
  let crc ← M.access fun _ => crc32be e addr 0#32 inp inp.length
  liftS (streamWriteBits e (crc.setWidth 64) 32)
  liftS (streamFlush e)
  let p ← M.get
  pure (8 * p.s.ptr)

/-- Uninitialised (malloc'ed) fields of `struct sw842_param` -/
structure OptJunk where
  dai : Nat → BitVec 64
  validity : Nat → BitVec 16
  keys : Nat → BitVec 16
  fifo16 : Nat → BitVec 16
  fifo32 : Nat → BitVec 32
  fifo64 : Nat → BitVec 64

/-- The state after 842_compress.cpp 586-601; `NO_ENTRY` is -1 -/
def ocompInit (j : OptJunk) (inp buf : List Byte) : OComp :=
  { core :=
      { inp := inp, pos := 0, ilen := inp.length, dai := j.dai, hashes := fun _ => 0#64
        validity := j.validity, keys := j.keys
        ht16 := fun _ => -1#16, ht32 := fun _ => -1#16, ht64 := fun _ => -1#16
        fifo16 := j.fifo16, fifo32 := j.fifo32, fifo64 := j.fifo64 }
    s := streamOpen buf }

/-- `optsw842_compress(in, ilen, out, &olen)`, 842_compress.cpp 569-682, with an explicit
bound on loop iterations.  `inp` is exactly the `ilen` input bytes, `buf` the prior
contents of the `*olen` output bytes, `ain` and `aout` the addresses of `in` and `out`,
`j` and `jsw` the contents of freshly allocated memory. -/
def optsw842CompressF (fuel : Nat) (e : Endian) (ain aout : Nat) (j : OptJunk) (jsw : CompJunk)
    (inp buf : List Byte) : Call :=
  if inp.length % 8 ≠ 0 then .ret (some .EINVAL) buf.length buf
  else if ain % 8 ≠ 0 ∨ aout % 8 ≠ 0 then sw842CompressF fuel e ain jsw inp buf
  else
    match ocompBody (.std e) e ain fuel inp (ocompInit j inp buf) with
    | .ok n p => .ret none n p.s.buf
    | .err er p => .ret (some er) 0 p.s.buf
    | .ub => .ub
    | .timeout => .timeout

/-- `optsw842_compress`: the main loop consumes 8 bytes per iteration. -/
def optsw842Compress (e : Endian) (ain aout : Nat) (j : OptJunk) (jsw : CompJunk)
    (inp buf : List Byte) : Call :=
  optsw842CompressF (inp.length / 8 + 1) e ain aout j jsw inp buf

end Lib842
