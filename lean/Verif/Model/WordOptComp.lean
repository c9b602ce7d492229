import Verif.Model.OptComp
import Verif.Model.WordComp
/-!
# `optsw842_compress` with machine arithmetic (`/repo/src/serial_optimized/842_compress.cpp`, `bitstream.cpp`)

`Model/OptComp` with the widths of the code for the members and variables of the bit stream, for `p->ilen` and `repeat_count`.  The
functions that use none of these (`get_next_data`, `hash`, `find_index`, `get_template`, `update_hashtables`) are those of `Model/OptComp`.
-/

namespace Lib842

/-- `struct bitstream`, bitstream.cpp 18-24: `ptr` and `endw` are `ptr - begin` and `end - begin` -/
structure BStreamW where
  bits : BitVec 8
  buffer : BitVec 64
  ptr : Nat
  endw : Nat
  buf : List Byte
  deriving DecidableEq, Repr

/-- `struct sw842_param`, 842_compress.cpp 37-58: `core` has the fields of `Model/OptComp`, of which `ilen` is not used -/
structure OCompW where
  core : OCore
  ilen : BitVec 64
  s : BStreamW

/-- `stream_write_word`, bitstream.cpp 29-35 -/
def streamWriteWordW (e : Endian) (value : BitVec 64) : M BStreamW Unit := do
  let s ← M.get
  if s.ptr = s.endw then M.fail .ENOSPC
  else do
    M.update fun s => (store64 e s.buf (8 * s.ptr) (swapBe64 e value)).map fun b => { s with buf := b }
    M.modify fun s => { s with ptr := s.ptr + 1 }

/-- `stream_write_bits`, bitstream.cpp 46-67; shift counts are computed in `int` -/
def streamWriteBitsW (e : Endian) (value : BitVec 64) (n : BitVec 8) : M BStreamW Unit := do
  let value ← M.access fun _ => cshl value (64 - (n.toNat : Int))
  let s ← M.get
  let shifted ← M.access fun _ => cshr value s.bits.toNat
  M.modify fun s => { s with buffer := s.buffer ||| shifted, bits := s.bits + n }
  let s ← M.get
  if s.bits ≥ 64#8 then do
    M.modify fun s => { s with bits := s.bits - 64#8 }
    let s ← M.get
    streamWriteWordW e s.buffer
    let b ← M.access fun _ => cshl (value <<< 1) (((n - 1#8).toNat : Int) - s.bits.toNat)
    M.modify fun s => { s with buffer := b }
  else pure ()

/-- The loop of `stream_pad`, bitstream.cpp 79-82 -/
def streamPadLoopW (e : Endian) : (fuel : Nat) → M BStreamW Unit
  | 0 => M.timeout
  | fuel + 1 => do
    let s ← M.get
    if s.bits ≥ 64#8 then do
      streamWriteWordW e s.buffer
      M.modify fun s => { s with buffer := 0#64, bits := s.bits - 64#8 }
      streamPadLoopW e fuel
    else pure ()

/-- `stream_pad`, bitstream.cpp 77-83 -/
def streamPadW (e : Endian) (n : BitVec 8) : M BStreamW Unit := do
  M.modify fun s => { s with bits := s.bits + n }
  streamPadLoopW e 4

/-- `stream_flush`, bitstream.cpp 86-91; `wsize - s->bits` is an `int` -/
def streamFlushW (e : Endian) : M BStreamW Unit := do
  let s ← M.get
  let bits := ((64#32 - s.bits.setWidth 32).srem 64#32).setWidth 8
  if bits ≠ 0#8 then streamPadW e bits else pure ()

/-- A step on the stream (part of the model only, no counterpart in /repo; calls of `stream_write_bits`, 842_compress.cpp 155 etc.) -/
def liftSW {α : Type} (x : M BStreamW α) : M OCompW α := fun p =>
  match x p.s with
  | .ok a s => .ok a { p with s := s }
  | .err er s => .err er { p with s := s }
  | .ub => .ub
  | .timeout => .timeout

/-- A step of `Model/OptComp` on the other fields (part of the model only, no counterpart in /repo; 842_compress.cpp 393-472) -/
def liftOW (f : OCore → Option OCore) : M OCompW Unit :=
  M.update fun p => (f { p.core with ilen := p.ilen.toNat }).map fun c => { p with core := c }

/-- `add_template<code>`, 842_compress.cpp 148-369 and the `switch` of `process_next`, 474-555 -/
def oaddTemplateW (e : Endian) (code : Nat) : M OCompW Unit := do
  let p ← M.get
  if code = 0 then do
    liftSW (streamWriteBitsW e 0#64 5#8)
    liftSW (streamWriteBitsW e (p.core.dai 6) 64#8)
  else
    match optRows[code - 1]? with
    | some (n, fields) => do
      let out ← M.access fun _ => orShifted e code p.core fields
      liftSW (streamWriteBitsW e out (BitVec.ofNat 8 n))
    | none => pure ()

/-- `add_repeat_template`, 842_compress.cpp 371-377; `r` is a `uint8_t` -/
def oaddRepeatW (e : Endian) (r : BitVec 8) : M BStreamW Unit :=
  streamWriteBitsW e ((0x1B#64 <<< 6) ||| (r - 1#8).setWidth 64) 11#8

/-- `process_next`, 842_compress.cpp 434-557 -/
def oprocessNextW (e : Endian) : M OCompW Unit := do
  liftOW fun c => some { c with validity := fun k => if k < 7 then 0#16 else c.validity k
                                keys := fun k => if k < 7 then 0#16 else c.keys k }
  liftOW fun c => some (hashAll c)
  liftOW findIndex
  let p ← M.get
  let templateKey ← M.access fun _ => getTemplate p.core.keys
  oaddTemplateW e templateKey

/-- One iteration of the main loop after `next` and the data have been loaded, 842_compress.cpp 619-643; `repeat_count` is a `uint8_t` -/
def ocompStepW (e : Endian) (next last : BitVec 64) (rc : BitVec 8) : M OCompW (BitVec 8) := do
  let rc := if next = last then rc + 1#8 else rc
  if next = last ∧ rc ≤ 0x3f#8 then pure rc
  else if rc ≠ 0#8 then do
    liftSW (oaddRepeatW e rc)
    if next = last then pure 0#8
    else do
      if next = 0#64 then liftSW (streamWriteBitsW e 0x1C#64 5#8) else oprocessNextW e
      pure 0#8
  else do
    if next = 0#64 then liftSW (streamWriteBitsW e 0x1C#64 5#8) else oprocessNextW e
    pure rc

/-- The main loop, 842_compress.cpp 611-651 -/
def ocompLoopW (e : Endian) : (fuel : Nat) → (last : BitVec 64) → (rc : BitVec 8) → M OCompW (BitVec 8)
  | 0, _, _ => M.timeout
  | fuel + 1, last, rc => do
    let p ← M.get
    if p.ilen > 7#64 then do
      let next ← M.access fun _ => load64 e p.core.inp p.core.pos
      liftOW (ogetNextData e)
      let rc ← ocompStepW e next last rc
      liftOW oupdateHashtables
      M.modify fun p => { p with core := { p.core with pos := p.core.pos + 8 }, ilen := p.ilen - 8#64 }
      ocompLoopW e fuel next rc
    else pure rc

/-- The `try` block of `optsw842_compress`, 842_compress.cpp 603-671; returns `stream_size` (bitstream.cpp 40-43), where the difference of
the pointers is converted to `size_t`; `ilen` is the argument -/
def ocompBodyW (e : Endian) (addr fuel : Nat) (inp : List Byte) (ilen : BitVec 64) : M OCompW (BitVec 64) := do
  let p ← M.get
  let first ← M.access fun _ => load64 e p.core.inp p.core.pos
  let rc ← ocompLoopW e fuel (~~~ first) 0#8
  if rc ≠ 0#8 then liftSW (oaddRepeatW e rc) else pure ()
  liftSW (streamWriteBitsW e 0x1E#64 5#8)
  let crc ← M.access fun _ => crc32be e addr 0#32 inp ilen.toNat
  liftSW (streamWriteBitsW e (crc.setWidth 64) 32#8)
  liftSW (streamFlushW e)
  let p ← M.get
  pure (8#64 * BitVec.ofNat 64 p.s.ptr)

/-- The state after 842_compress.cpp 586-601 and `stream_open`, bitstream.cpp 94-104 -/
def ocompInitW (j : OptJunk) (inp buf : List Byte) : OCompW :=
  { core := (ocompInit j inp buf).core, ilen := BitVec.ofNat 64 inp.length,
    s := { bits := 0#8, buffer := 0#64, ptr := 0, endw := (BitVec.ofNat 64 buf.length / 8#64).toNat, buf := buf } }

/-- `optsw842_compress(in, ilen, out, &olen)`, 842_compress.cpp 569-682 -/
def optsw842CompressW (e : Endian) (ain aout : Nat) (j : OptJunk) (jsw : CompJunk) (inp buf : List Byte) : Call :=
  if BitVec.ofNat 64 inp.length % 8#64 ≠ 0#64 then .ret (some .EINVAL) buf.length buf
  else if ain % 8 ≠ 0 ∨ aout % 8 ≠ 0 then sw842CompressW e ain jsw inp buf
  else
    match ocompBodyW e ain (inp.length / 8 + 1) inp (BitVec.ofNat 64 inp.length) (ocompInitW j inp buf) with
    | .ok n p => .ret none n.toNat p.s.buf
    | .err er p => .ret (some er) 0 p.s.buf
    | .ub => .ub
    | .timeout => .timeout

end Lib842
