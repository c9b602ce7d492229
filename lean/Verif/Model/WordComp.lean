import Verif.Model.SwComp
import Verif.Model.WordDecomp
/-!
# `sw842_compress` with machine arithmetic (`/repo/src/serial/842_compress.c`)

`Model/SwComp` with the widths of the code for `p->ilen`, `p->olen`, `p->bit`, `total`, `pad` and the variables of `add_bits`.  The functions that use
none of these (`get_next_data`, the search for a template, `update_hashtables`) are those of `Model/SwComp`.
-/

namespace Lib842

/-- The part of `struct sw842_param` (842_compress.c 67-86) used for output -/
structure WriterW where
  buf : List Byte
  out : Nat
  olen : BitVec 64
  bit : BitVec 8
  deriving DecidableEq, Repr

/-- `struct sw842_param`, 842_compress.c 67-86: `c` has the fields of `Model/SwComp`, of which `w` and `ilen` are not used -/
structure CompW where
  c : Comp
  ilen : BitVec 64
  w : WriterW

/-- `round_up(bits, 8) - bits`, kerneldeps.h 14-15 and 842_compress.c 237, in `int` -/
def roundRestW (bits : BitVec 32) : BitVec 32 := (((bits - 1#32) ||| 7#32) + 1#32) - bits

/-- `DIV_ROUND_UP(bits, 8)`, kerneldeps.h 18, in `int`, converted to `uint64_t` by the comparison at 842_compress.c 258 -/
def divRoundUpIW (bits : BitVec 32) : BitVec 64 := ((bits + 8#32 - 1#32).sdiv 8#32).signExtend 64

/-- `__split_add_bits`, 842_compress.c 222-233 -/
def splitAddBitsW (rec : BitVec 64 → BitVec 8 → M WriterW Unit) (d : BitVec 64) (n s : BitVec 8) : M WriterW Unit :=
  if n ≤ s then M.fail .EINVAL
  else do
    rec (d >>> s.toNat) (n - s)
    rec (d &&& genmask (s.toNat - 1) 0) s

/-- `add_bits`, 842_compress.c 235-291; `b`, `bits` and `s` are of type `int` -/
def addBitsFW (e : Endian) : (fuel : Nat) → BitVec 64 → BitVec 8 → M WriterW Unit
  | 0, _, _ => M.timeout
  | fuel + 1, d, n => do
    let p ← M.get
    let b := p.bit.setWidth 32
    let bits := b + n.setWidth 32
    let s := roundRestW bits
    if n > 64#8 then M.fail .EINVAL
    else if bits.toInt > 64 then splitAddBitsW (addBitsFW e fuel) d n 32#8
    else if p.olen < 8#64 ∧ bits.toInt > 32 ∧ bits.toInt ≤ 56 then splitAddBitsW (addBitsFW e fuel) d n 16#8
    else if p.olen < 4#64 ∧ bits.toInt > 16 ∧ bits.toInt ≤ 24 then splitAddBitsW (addBitsFW e fuel) d n 8#8
    else if divRoundUpIW bits > p.olen then M.fail .ENOSPC
    else do
      let cur ← M.access fun p => p.buf[p.out]?
      let mask ← M.access fun _ => bmask[b.toNat]?
      let o : BitVec 64 := (cur &&& mask).setWidth 64
      let d := d <<< s.toNat
      M.update fun p =>
        (putBits e p.buf p.out bits.toNat o d).map fun buf => { p with buf := buf }
      M.modify fun p =>
        let bit := p.bit + n
        if bit > 7#8 then
          { p with out := p.out + (bit / 8#8).toNat, olen := p.olen - (bit / 8#8).setWidth 64, bit := bit % 8#8 }
        else { p with bit := bit }

/-- `add_bits`, 842_compress.c 235-291 -/
def addBitsW (e : Endian) (d : BitVec 64) (n : BitVec 8) : M WriterW Unit := addBitsFW e (n.toNat + 1) d n

/-- Run a writer computation on the whole state (part of the model only, no counterpart in /repo) -/
def liftWW {α : Type} (x : M WriterW α) : M CompW α := fun p =>
  match x p.w with
  | .ok a w => .ok a { p with w := w }
  | .err er w => .err er { p with w := w }
  | .ub => .ub
  | .timeout => .timeout

/-- Run a computation of `Model/SwComp` that does not use the output nor `p->ilen` (part of the model only, no counterpart in /repo) -/
def liftCW {α : Type} (x : M Comp α) : M CompW α := fun p =>
  match x { p.c with ilen := p.ilen.toNat, w := ⟨p.w.buf, p.w.out, p.w.olen.toNat, p.w.bit.toNat⟩ } with
  | .ok a c => .ok a { p with c := c }
  | .err er c => .err er { p with c := c }
  | .ub => .ub
  | .timeout => .timeout

/-- The loop of `add_template`, 842_compress.c 310-367 -/
def addActionsW (e : Endian) : List Nat → Nat → M CompW Nat
  | [], b => pure b
  | t :: ts, b => do
    let inv ←
      if amount t = 8 then
        if b ≠ 0 then pure true
        else if isIndex t then do
          let p ← M.get
          let i ← M.access fun _ => arrGet 1 p.c.index8 0
          liftWW (addBitsW e (BitVec.ofInt 64 i) 8#8); pure false
        else if isData t then do
          let p ← M.get
          let d ← M.access fun _ => arrGet 1 p.c.data8 0
          liftWW (addBitsW e d 64#8); pure false
        else pure true
      else if amount t = 4 then
        if b = 2 ∧ isData t then do
          let p ← M.get
          let d ← M.access fun _ => load32 e p.c.inp (p.c.pos + 2)
          liftWW (addBitsW e ((swapBe32 e d).setWidth 64) 32#8); pure false
        else if b ≠ 0 ∧ b ≠ 4 then pure true
        else if isIndex t then do
          let p ← M.get
          let i ← M.access fun _ => arrGet 2 p.c.index4 (b >>> 2)
          liftWW (addBitsW e (BitVec.ofInt 64 i) 9#8); pure false
        else if isData t then do
          let p ← M.get
          let d ← M.access fun _ => arrGet 2 p.c.data4 (b >>> 2)
          liftWW (addBitsW e (d.setWidth 64) 32#8); pure false
        else pure true
      else if amount t = 2 then do
        let inv := decide (b ≠ 0 ∧ b ≠ 2 ∧ b ≠ 4 ∧ b ≠ 6)
        if isIndex t then do
          let p ← M.get
          let i ← M.access fun _ => arrGet 4 p.c.index2 (b >>> 1)
          liftWW (addBitsW e (BitVec.ofInt 64 i) 8#8); pure inv
        else if isData t then do
          let p ← M.get
          let d ← M.access fun _ => arrGet 4 p.c.data2 (b >>> 1)
          liftWW (addBitsW e (d.setWidth 64) 16#8); pure inv
        else pure true
      else if amount t = 0 then
        pure (decide (b ≠ 8) || !isNoop t)
      else pure true
    if inv then M.fail .EINVAL
    else addActionsW e ts (b + amount t)

/-- `add_template`, 842_compress.c 293-376 -/
def addTemplateW (e : Endian) (c : Nat) : M CompW Unit :=
  if c ≥ OPS_MAX then M.fail .EINVAL
  else do
    let t ← M.access fun _ => compOps[c]?
    let t4 ← M.access fun _ => t[4]?
    liftWW (addBitsW e (BitVec.ofNat 64 t4) 5#8)
    let b ← addActionsW e (t.take 4) 0
    if b ≠ 8 then M.fail .EINVAL else pure ()

/-- `add_repeat_template`, 842_compress.c 378-395; `r` is a `uint8_t` -/
def addRepeatW (e : Endian) (r : BitVec 8) : M CompW Unit :=
  if r = 0#8 ∨ r - 1#8 > 0x3f#8 then M.fail .EINVAL
  else do
    liftWW (addBitsW e 0x1B#64 5#8)
    liftWW (addBitsW e ((r - 1#8).setWidth 64) 6#8)

/-- The byte loop of `add_short_data_template`, 842_compress.c 412-416 -/
def addShortBytesW (e : Endian) : (n i : Nat) → M CompW Unit
  | 0, _ => pure ()
  | n + 1, i => do
    let x ← M.access fun p => p.c.inp[p.c.pos + i]?
    liftWW (addBitsW e (x.setWidth 64) 8#8)
    addShortBytesW e n (i + 1)

/-- `add_short_data_template`, 842_compress.c 397-419; `b` is a `uint8_t` -/
def addShortDataW (e : Endian) (b : BitVec 8) : M CompW Unit :=
  if b = 0#8 ∨ b > 7#8 then M.fail .EINVAL
  else do
    liftWW (addBitsW e 0x1D#64 5#8)
    liftWW (addBitsW e (b.setWidth 64) 3#8)
    addShortBytesW e b.toNat 0

/-- `process_next`, 842_compress.c 503-525 -/
def processNextW (e : Endian) : M CompW Unit := do
  M.modify fun p =>
    { p with c := { p.c with
      index8 := upd p.c.index8 0 (-2)
      index4 := upd (upd p.c.index4 0 (-2)) 1 (-2)
      index2 := upd (upd (upd (upd p.c.index2 0 (-2)) 1 (-2)) 2 (-2)) 3 (-2) } }
  let i ← liftCW (findTemplate (OPS_MAX - 1) 0)
  addTemplateW e i

/-- One iteration of the main loop after `next` and the data fields have been loaded, 842_compress.c 594-612; `rc` is a `uint8_t` -/
def compStepW (e : Endian) (next last : BitVec 64) (rc : BitVec 8) : M CompW (BitVec 8) := do
  let rc := if next = last then rc + 1#8 else rc
  if next = last ∧ rc ≤ 0x3f#8 then pure rc
  else if rc ≠ 0#8 then do
    M.ignore (addRepeatW e rc)
    if next = last then pure 0#8
    else do
      if next = 0#64 then liftWW (addBitsW e 0x1C#64 5#8) else processNextW e
      pure 0#8
  else do
    if next = 0#64 then liftWW (addBitsW e 0x1C#64 5#8) else processNextW e
    pure rc

/-- The main loop, 842_compress.c 582-619 -/
def compLoopW (e : Endian) : (fuel : Nat) → (last : BitVec 64) → (rc : BitVec 8) → M CompW (BitVec 8)
  | 0, _, _ => M.timeout
  | fuel + 1, last, rc => do
    let p ← M.get
    if p.ilen > 7#64 then do
      let next ← M.access fun _ => load64 e p.c.inp p.c.pos
      liftCW (getNextData e)
      let rc ← compStepW e next last rc
      liftCW updateHashtables
      M.modify fun p => { p with c := { p.c with pos := p.c.pos + 8 }, ilen := p.ilen - 8#64 }
      compLoopW e fuel next rc
    else pure rc

/-- 842_compress.c 654-658 and 660-670 -/
def compPadW (total : BitVec 64) : M WriterW Unit := do
  M.modify fun w =>
    if w.bit ≠ 0#8 then { w with out := w.out + 1, olen := w.olen - 1#64, bit := 0#8 } else w
  let w ← M.get
  let pad := (8#64 - (total - w.olen) % 8#64) % 8#64
  if pad ≠ 0#64 then
    if pad > w.olen then M.fail .ENOSPC
    else do
      M.update fun w =>
        (writeBytes w.buf w.out (List.replicate pad.toNat 0#8)).map fun b => { w with buf := b }
      M.modify fun w => { w with out := w.out + pad.toNat, olen := w.olen - pad }
  else pure ()

/-- The body of `sw842_compress`, 842_compress.c 575-677, on an initialised `p`; `ilen` is the argument -/
def compBodyW (e : Endian) (addr : Nat) (fuel : Nat) (inp : List Byte) (ilen total : BitVec 64) : M CompW (BitVec 64) := do
  if ilen < 8#64 then pure ()
  else do
    let first ← M.access fun p => load64 e p.c.inp p.c.pos
    let rc ← compLoopW e fuel (~~~ first) 0#8
    if rc ≠ 0#8 then addRepeatW e rc else pure ()
  let p ← M.get
  if p.ilen > 0#64 then do
    addShortDataW e (p.ilen.setWidth 8)
    M.modify fun p => { p with c := { p.c with pos := p.c.pos + p.ilen.toNat }, ilen := 0#64 }
  else pure ()
  liftWW (addBitsW e 0x1E#64 5#8)
  let crc ← M.access fun _ => crc32be e addr 0#32 inp ilen.toNat
  liftWW (addBitsW e (crc.setWidth 64) 32#8)
  liftWW (compPadW total)
  let p ← M.get
  if total - p.w.olen > 0xffffffff#64 then M.fail .ENOSPC
  else pure (total - p.w.olen)

/-- The state after 842_compress.c 548-561; `ilen` and `*olen` are `size_t` -/
def compInitW (j : CompJunk) (inp buf : List Byte) : CompW :=
  { c := compInit j inp buf, ilen := BitVec.ofNat 64 inp.length,
    w := { buf := buf, out := 0, olen := BitVec.ofNat 64 buf.length, bit := 0#8 } }

/-- `sw842_compress(in, ilen, out, &olen)`, 842_compress.c 537-689 -/
def sw842CompressW (e : Endian) (addr : Nat) (j : CompJunk) (inp buf : List Byte) : Call :=
  match compBodyW e addr (inp.length / 8 + 1) inp (BitVec.ofNat 64 inp.length) (BitVec.ofNat 64 buf.length) (compInitW j inp buf) with
  | .ok n p => .ret none n.toNat p.w.buf
  | .err er p => .ret (some er) 0 p.w.buf
  | .ub => .ub
  | .timeout => .timeout

end Lib842
