import Verif.Model.Call
import Verif.Model.Crc
/-!
# Software compressor (`/repo/src/serial/842_compress.c`)

Conventions: `size_t`/`uint64_t` lengths and positions are natural numbers (they
are sizes of real objects and never wrap); data words are `BitVec`s.
`fprintf` diagnostics, `malloc` failure and `free` are not modelled.  The uthash
table together with its doubly linked lists is modelled as a function from the key
to the list of indices (`[]` = no entry or `head == NULL`, which `find_index` and
`replace_hash` do not distinguish).
-/

namespace Lib842

/-- The part of `struct sw842_param` (842_compress.c 67-86) used for output:
`out` is `p->out` as an offset into the output buffer `buf`. -/
structure Writer where
  buf : List Byte
  out : Nat
  olen : Nat
  bit : Nat
  deriving DecidableEq, Repr

/-- `struct sw842_param`, 842_compress.c 67-86: `pos` is `p->in - p->instart`. -/
structure Comp where
  inp : List Byte
  pos : Nat
  ilen : Nat
  w : Writer
  data8 : Nat → BitVec 64
  data4 : Nat → BitVec 32
  data2 : Nat → BitVec 16
  index8 : Nat → Int
  index4 : Nat → Int
  index2 : Nat → Int
  ht8 : BitVec 64 → List Nat
  ht4 : BitVec 32 → List Nat
  ht2 : BitVec 16 → List Nat
  node8 : Nat → BitVec 64
  node4 : Nat → BitVec 32
  node2 : Nat → BitVec 16

/-- `bmask`, 842_compress.c 218 -/
def bmask : List (BitVec 8) := [0x00, 0x80, 0xc0, 0xe0, 0xf0, 0xf8, 0xfc, 0xfe]

/-- `__split_add_bits`, 842_compress.c 222-233 (`rec` is `add_bits`) -/
def splitAddBits (rec : BitVec 64 → Nat → M Writer Unit) (d : BitVec 64) (n s : Nat) :
    M Writer Unit :=
  if n ≤ s then M.fail .EINVAL
  else do
    rec (d >>> s) (n - s)
    rec (d &&& genmask (s - 1) 0) s

/-- The store of `add_bits`, 842_compress.c 265-280: `o` is the masked current
byte, `d` the data already shifted left to a byte boundary. -/
def putBits (e : Endian) (buf : List Byte) (out bits : Nat) (o d : BitVec 64) :
    Option (List Byte) :=
  if bits ≤ 8 then
    writeBytes buf out [(o ||| d).setWidth 8]
  else if bits ≤ 16 then
    store16 e buf out (swapBe16 e ((o <<< 8 ||| d).setWidth 16))
  else if bits ≤ 24 then
    store32 e buf out (swapBe32 e ((o <<< 24 ||| d <<< 8).setWidth 32))
  else if bits ≤ 32 then
    store32 e buf out (swapBe32 e ((o <<< 24 ||| d).setWidth 32))
  else if bits ≤ 40 then
    store64 e buf out (swapBe64 e (o <<< 56 ||| d <<< 24))
  else if bits ≤ 48 then
    store64 e buf out (swapBe64 e (o <<< 56 ||| d <<< 16))
  else if bits ≤ 56 then
    store64 e buf out (swapBe64 e (o <<< 56 ||| d <<< 8))
  else
    store64 e buf out (swapBe64 e (o <<< 56 ||| d))

/-- `add_bits`, 842_compress.c 235-291.  `fuel` bounds the depth of the mutual
recursion with `__split_add_bits`. -/
def addBitsF (e : Endian) : (fuel : Nat) → BitVec 64 → Nat → M Writer Unit
  | 0, _, _ => M.timeout
  | fuel + 1, d, n => do
    let p ← M.get
    let b := p.bit
    let bits := b + n
    let s := roundUp8 bits - bits
    if n > 64 then M.fail .EINVAL
    else if bits > 64 then splitAddBits (addBitsF e fuel) d n 32
    else if p.olen < 8 ∧ bits > 32 ∧ bits ≤ 56 then splitAddBits (addBitsF e fuel) d n 16
    else if p.olen < 4 ∧ bits > 16 ∧ bits ≤ 24 then splitAddBits (addBitsF e fuel) d n 8
    else if divRoundUp bits 8 > p.olen then M.fail .ENOSPC
    else do
      let cur ← M.access fun p => p.buf[p.out]?
      let mask ← M.access fun _ => bmask[b]?
      let o : BitVec 64 := (cur &&& mask).setWidth 64
      let d := d <<< s
      M.update fun p =>
        (putBits e p.buf p.out bits o d).map fun buf => { p with buf := buf }
      M.modify fun p =>
        let bit := p.bit + n
        if bit > 7 then
          { p with out := p.out + bit / 8, olen := p.olen - bit / 8, bit := bit % 8 }
        else { p with bit := bit }

/-- `add_bits` with enough fuel (each split halves `n`) (/repo/src/serial/842_compress.c 235-291) -/
def addBits (e : Endian) (d : BitVec 64) (n : Nat) : M Writer Unit := addBitsF e (n + 1) d n

/-- Run a writer computation on the whole state (part of the model only, no counterpart in /repo) -/
def liftW {α : Type} (x : M Writer α) : M Comp α := fun p =>
  match x p.w with
  | .ok a w => .ok a { p with w := w }
  | .err er w => .err er { p with w := w }
  | .ub => .ub
  | .timeout => .timeout

/-- `comp_ops`, 842_compress.c 103-130 with the constants of
`/repo/src/common/842.h` 109-115: D2 = 0x22, D4 = 0x24, D8 = 0x28, I2 = 0x12,
I4 = 0x14, I8 = 0x18, N0 = 0x40. -/
def compOps : List (List Nat) := [
  [0x18, 0x40, 0x40, 0x40, 0x19],
  [0x14, 0x14, 0x40, 0x40, 0x18],
  [0x14, 0x12, 0x12, 0x40, 0x17],
  [0x12, 0x12, 0x14, 0x40, 0x13],
  [0x12, 0x12, 0x12, 0x12, 0x12],
  [0x14, 0x12, 0x22, 0x40, 0x16],
  [0x14, 0x22, 0x12, 0x40, 0x15],
  [0x12, 0x22, 0x14, 0x40, 0x0e],
  [0x22, 0x12, 0x14, 0x40, 0x09],
  [0x12, 0x12, 0x12, 0x22, 0x11],
  [0x12, 0x12, 0x22, 0x12, 0x10],
  [0x12, 0x22, 0x12, 0x12, 0x0d],
  [0x22, 0x12, 0x12, 0x12, 0x08],
  [0x14, 0x24, 0x40, 0x40, 0x14],
  [0x24, 0x14, 0x40, 0x40, 0x04],
  [0x12, 0x12, 0x24, 0x40, 0x0f],
  [0x12, 0x22, 0x12, 0x22, 0x0c],
  [0x12, 0x24, 0x12, 0x40, 0x0b],
  [0x22, 0x12, 0x12, 0x22, 0x07],
  [0x22, 0x12, 0x22, 0x12, 0x06],
  [0x24, 0x12, 0x12, 0x40, 0x03],
  [0x12, 0x22, 0x24, 0x40, 0x0a],
  [0x22, 0x12, 0x24, 0x40, 0x05],
  [0x24, 0x12, 0x22, 0x40, 0x02],
  [0x24, 0x22, 0x12, 0x40, 0x01],
  [0x28, 0x40, 0x40, 0x40, 0x00]]

/-- `t[i] & OP_ACTION_INDEX`, `& OP_ACTION_DATA`, `& OP_ACTION_NOOP`, `& OP_AMOUNT`
(842.h 99-107) -/
def isIndex (t : Nat) : Bool := t &&& 0x10 != 0
/-- `t[i] & OP_ACTION_DATA`, /repo/src/serial/842_compress.c 321, 327, 333, 343, /repo/src/common/842.h 101. -/
def isData (t : Nat) : Bool := t &&& 0x20 != 0
/-- `t[i] & OP_ACTION_NOOP`, /repo/src/common/842.h 102. -/
def isNoop (t : Nat) : Bool := t &&& 0x40 != 0
/-- `t[i] & OP_AMOUNT`, /repo/src/serial/842_compress.c 315, /repo/src/common/842.h 103. -/
def amount (t : Nat) : Nat := t &&& 0x0f

/-- `OPS_MAX` (/repo/src/common/842.h 118) -/
def OPS_MAX : Nat := 0x1a

/-- The loop of `add_template`, 842_compress.c 310-367, over the remaining
actions `t[i..3]`; `b` is the C variable `b`.  An `int` index is converted to
`uint64_t` when passed to `add_bits` (sign extension). -/
def addActions (e : Endian) : List Nat → Nat → M Comp Nat
  | [], b => pure b
  | t :: ts, b => do
    let inv ←
      if amount t = 8 then
        if b ≠ 0 then pure true
        else if isIndex t then do
          let p ← M.get
          let i ← M.access fun _ => arrGet 1 p.index8 0
          liftW (addBits e (BitVec.ofInt 64 i) 8); pure false
        else if isData t then do
          let p ← M.get
          let d ← M.access fun _ => arrGet 1 p.data8 0
          liftW (addBits e d 64); pure false
        else pure true
      else if amount t = 4 then
        if b = 2 ∧ isData t then do
          let p ← M.get
          let d ← M.access fun _ => load32 e p.inp (p.pos + 2)
          liftW (addBits e ((swapBe32 e d).setWidth 64) 32); pure false
        else if b ≠ 0 ∧ b ≠ 4 then pure true
        else if isIndex t then do
          let p ← M.get
          let i ← M.access fun _ => arrGet 2 p.index4 (b >>> 2)
          liftW (addBits e (BitVec.ofInt 64 i) 9); pure false
        else if isData t then do
          let p ← M.get
          let d ← M.access fun _ => arrGet 2 p.data4 (b >>> 2)
          liftW (addBits e (d.setWidth 64) 32); pure false
        else pure true
      else if amount t = 2 then do
        let inv := decide (b ≠ 0 ∧ b ≠ 2 ∧ b ≠ 4 ∧ b ≠ 6)
        if isIndex t then do
          let p ← M.get
          let i ← M.access fun _ => arrGet 4 p.index2 (b >>> 1)
          liftW (addBits e (BitVec.ofInt 64 i) 8); pure inv
        else if isData t then do
          let p ← M.get
          let d ← M.access fun _ => arrGet 4 p.data2 (b >>> 1)
          liftW (addBits e (d.setWidth 64) 16); pure inv
        else pure true
      else if amount t = 0 then
        pure (decide (b ≠ 8) || !isNoop t)
      else pure true
    if inv then M.fail .EINVAL
    else addActions e ts (b + amount t)

/-- `add_template`, 842_compress.c 293-376 -/
def addTemplate (e : Endian) (c : Nat) : M Comp Unit :=
  if c ≥ OPS_MAX then M.fail .EINVAL
  else do
    let t ← M.access fun _ => compOps[c]?
    let t4 ← M.access fun _ => t[4]?
    liftW (addBits e (BitVec.ofNat 64 t4) 5)
    let b ← addActions e (t.take 4) 0
    if b ≠ 8 then M.fail .EINVAL else pure ()

/-- `add_repeat_template`, 842_compress.c 378-395 -/
def addRepeat (e : Endian) (r : Nat) : M Comp Unit :=
  if r = 0 ∨ r - 1 > 0x3f then M.fail .EINVAL
  else do
    liftW (addBits e 0x1B#64 5)
    liftW (addBits e (BitVec.ofNat 64 (r - 1)) 6)

/-- The byte loop of `add_short_data_template`, 842_compress.c 412-416 -/
def addShortBytes (e : Endian) : (n i : Nat) → M Comp Unit
  | 0, _ => pure ()
  | n + 1, i => do
    let x ← M.access fun p => p.inp[p.pos + i]?
    liftW (addBits e (x.setWidth 64) 8)
    addShortBytes e n (i + 1)

/-- `add_short_data_template`, 842_compress.c 397-419 -/
def addShortData (e : Endian) (b : Nat) : M Comp Unit :=
  if b = 0 ∨ b > 7 then M.fail .EINVAL
  else do
    liftW (addBits e 0x1D#64 5)
    liftW (addBits e (BitVec.ofNat 64 b) 3)
    addShortBytes e b 0

/-- `find_index(p, 8, n)`, 842_compress.c 143-153 -/
def findIndex8 (n : Nat) : M Comp Bool := do
  M.update fun p => (arrSet 1 p.index8 n (-1)).map fun a => { p with index8 := a }
  let p ← M.get
  let k ← M.access fun _ => arrGet 1 p.data8 n
  match p.ht8 k with
  | [] => pure ()
  | i :: _ => M.update fun p => (arrSet 1 p.index8 n i).map fun a => { p with index8 := a }
  let r ← M.access fun p => arrGet 1 p.index8 n
  pure (decide (r ≥ 0))

/-- `find_index(p, 4, n)` -/
def findIndex4 (n : Nat) : M Comp Bool := do
  M.update fun p => (arrSet 2 p.index4 n (-1)).map fun a => { p with index4 := a }
  let p ← M.get
  let k ← M.access fun _ => arrGet 2 p.data4 n
  match p.ht4 k with
  | [] => pure ()
  | i :: _ => M.update fun p => (arrSet 2 p.index4 n i).map fun a => { p with index4 := a }
  let r ← M.access fun p => arrGet 2 p.index4 n
  pure (decide (r ≥ 0))

/-- `find_index(p, 2, n)` -/
def findIndex2 (n : Nat) : M Comp Bool := do
  M.update fun p => (arrSet 4 p.index2 n (-1)).map fun a => { p with index2 := a }
  let p ← M.get
  let k ← M.access fun _ => arrGet 4 p.data2 n
  match p.ht2 k with
  | [] => pure ()
  | i :: _ => M.update fun p => (arrSet 4 p.index2 n i).map fun a => { p with index2 := a }
  let r ← M.access fun p => arrGet 4 p.index2 n
  pure (decide (r ≥ 0))

/-- `check_index(p, b, n)`, 842_compress.c 155-157 -/
def checkIndex8 (n : Nat) : M Comp Bool := do
  let i ← M.access fun p => arrGet 1 p.index8 n
  if i = -2 then findIndex8 n else pure (decide (i ≥ 0))
/-- `check_index(p, 4, n)`, /repo/src/serial/842_compress.c 155-157. -/
def checkIndex4 (n : Nat) : M Comp Bool := do
  let i ← M.access fun p => arrGet 2 p.index4 n
  if i = -2 then findIndex4 n else pure (decide (i ≥ 0))
/-- `check_index(p, 2, n)`, /repo/src/serial/842_compress.c 155-157. -/
def checkIndex2 (n : Nat) : M Comp Bool := do
  let i ← M.access fun p => arrGet 4 p.index2 n
  if i = -2 then findIndex2 n else pure (decide (i ≥ 0))

/-- The loop of `check_template`, 842_compress.c 449-464 -/
def checkActions : List Nat → Nat → M Comp Bool
  | [], _ => pure true
  | t :: ts, b =>
    if isIndex t then do
      let m ←
        if t &&& 0x02 ≠ 0 then checkIndex2 (b >>> 1)
        else if t &&& 0x04 ≠ 0 then checkIndex4 (b >>> 2)
        else if t &&& 0x08 ≠ 0 then checkIndex8 0
        else pure false
      if m then checkActions ts (b + amount t) else pure false
    else checkActions ts (b + amount t)

/-- `check_template`, 842_compress.c 441-467 -/
def checkTemplate (c : Nat) : M Comp Bool :=
  if c ≥ OPS_MAX then pure false
  else do
    let t ← M.access fun _ => compOps[c]?
    checkActions (t.take 4) 0

/-- `get_next_data`, 842_compress.c 469-478 -/
def getNextData (e : Endian) : M Comp Unit := do
  let p ← M.get
  let d8 ← M.access fun _ => load64 e p.inp (p.pos + 0)
  let d40 ← M.access fun _ => load32 e p.inp (p.pos + 0)
  let d41 ← M.access fun _ => load32 e p.inp (p.pos + 4)
  let d20 ← M.access fun _ => load16 e p.inp (p.pos + 0)
  let d21 ← M.access fun _ => load16 e p.inp (p.pos + 2)
  let d22 ← M.access fun _ => load16 e p.inp (p.pos + 4)
  let d23 ← M.access fun _ => load16 e p.inp (p.pos + 6)
  M.modify fun p =>
    { p with
      data8 := upd p.data8 0 (swapBe64 e d8)
      data4 := upd (upd p.data4 0 (swapBe32 e d40)) 1 (swapBe32 e d41)
      data2 := upd (upd (upd (upd p.data2 0 (swapBe16 e d20)) 1 (swapBe16 e d21))
        2 (swapBe16 e d22)) 3 (swapBe16 e d23) }

/-- `replace_hash(p, 8, i, d)`, 842_compress.c 159-199; `el->index` is a
`uint8_t`. -/
def replaceHash8 (i d : Nat) : M Comp Unit := do
  let nodeIndex := i + d
  let p ← M.get
  let old ← M.access fun _ => arrGet 256 p.node8 nodeIndex
  M.modify fun p => { p with ht8 := upd p.ht8 old ((p.ht8 old).erase nodeIndex) }
  let new ← M.access fun _ => arrGet 1 p.data8 d
  M.update fun p => (arrSet 256 p.node8 nodeIndex new).map fun a => { p with node8 := a }
  M.modify fun p => { p with ht8 := upd p.ht8 new (p.ht8 new ++ [nodeIndex % 2 ^ 8]) }

/-- `replace_hash(p, 4, i, d)`; `el->index` is a `uint16_t`. -/
def replaceHash4 (i d : Nat) : M Comp Unit := do
  let nodeIndex := i + d
  let p ← M.get
  let old ← M.access fun _ => arrGet 512 p.node4 nodeIndex
  M.modify fun p => { p with ht4 := upd p.ht4 old ((p.ht4 old).erase nodeIndex) }
  let new ← M.access fun _ => arrGet 2 p.data4 d
  M.update fun p => (arrSet 512 p.node4 nodeIndex new).map fun a => { p with node4 := a }
  M.modify fun p => { p with ht4 := upd p.ht4 new (p.ht4 new ++ [nodeIndex % 2 ^ 16]) }

/-- `replace_hash(p, 2, i, d)`; `el->index` is a `uint8_t`. -/
def replaceHash2 (i d : Nat) : M Comp Unit := do
  let nodeIndex := i + d
  let p ← M.get
  let old ← M.access fun _ => arrGet 256 p.node2 nodeIndex
  M.modify fun p => { p with ht2 := upd p.ht2 old ((p.ht2 old).erase nodeIndex) }
  let new ← M.access fun _ => arrGet 4 p.data2 d
  M.update fun p => (arrSet 256 p.node2 nodeIndex new).map fun a => { p with node2 := a }
  M.modify fun p => { p with ht2 := upd p.ht2 new (p.ht2 new ++ [nodeIndex % 2 ^ 8]) }

/-- `update_hashtables`, 842_compress.c 484-498 -/
def updateHashtables : M Comp Unit := do
  let p ← M.get
  let n8 := (p.pos >>> 3) % 2 ^ 8
  let n4 := (p.pos >>> 2) % 2 ^ 9
  let n2 := (p.pos >>> 1) % 2 ^ 8
  replaceHash8 n8 0
  replaceHash4 n4 0
  replaceHash4 n4 1
  replaceHash2 n2 0
  replaceHash2 n2 1
  replaceHash2 n2 2
  replaceHash2 n2 3

/-- The search loop of `process_next`, 842_compress.c 516-519: `k` iterations
left, current index `i`. -/
def findTemplate : (k i : Nat) → M Comp Nat
  | 0, i => pure i
  | k + 1, i => do
    let m ← checkTemplate i
    if m then pure i else findTemplate k (i + 1)

/-- `process_next`, 842_compress.c 503-525 -/
def processNext (e : Endian) : M Comp Unit := do
  M.modify fun p =>
    { p with
      index8 := upd p.index8 0 (-2)
      index4 := upd (upd p.index4 0 (-2)) 1 (-2)
      index2 := upd (upd (upd (upd p.index2 0 (-2)) 1 (-2)) 2 (-2)) 3 (-2) }
  let i ← findTemplate (OPS_MAX - 1) 0
  addTemplate e i

/-- One iteration of the main loop after `next` and the data fields have been
loaded, 842_compress.c 594-612; returns the new `repeat_count` (a `uint8_t`).  The
return code of `add_repeat_template` at line 600 is overwritten or ignored, never
tested. -/
def compStep (e : Endian) (next last : BitVec 64) (rc : Nat) : M Comp Nat := do
  let rc := if next = last then (rc + 1) % 2 ^ 8 else rc
  if next = last ∧ rc ≤ 0x3f then pure rc
  else if rc ≠ 0 then do
    M.ignore (addRepeat e rc)
    if next = last then pure 0
    else do
      if next = 0#64 then liftW (addBits e 0x1C#64 5) else processNext e
      pure 0
  else do
    if next = 0#64 then liftW (addBits e 0x1C#64 5) else processNext e
    pure rc

/-- The main loop, 842_compress.c 582-619 -/
def compLoop (e : Endian) : (fuel : Nat) → (last : BitVec 64) → (rc : Nat) → M Comp Nat
  | 0, _, _ => M.timeout
  | fuel + 1, last, rc => do
    let p ← M.get
    if p.ilen > 7 then do
      let next ← M.access fun _ => load64 e p.inp p.pos
      getNextData e
      let rc ← compStep e next last rc
      updateHashtables
      M.modify fun p => { p with pos := p.pos + 8, ilen := p.ilen - 8 }
      compLoop e fuel next rc
    else pure rc

/-- 842_compress.c 654-658 and 660-670: round up to a whole byte, pad with zero
bytes to a multiple of 8.  `total` is the initial `olen`. -/
def compPad (total : Nat) : M Writer Unit := do
  M.modify fun w =>
    if w.bit ≠ 0 then { w with out := w.out + 1, olen := w.olen - 1, bit := 0 } else w
  let w ← M.get
  let pad := (8 - (total - w.olen) % 8) % 8
  if pad ≠ 0 then
    if pad > w.olen then M.fail .ENOSPC
    else do
      M.update fun w =>
        (writeBytes w.buf w.out (List.replicate pad 0#8)).map fun b => { w with buf := b }
      M.modify fun w => { w with out := w.out + pad, olen := w.olen - pad }
  else pure ()

/-- The body of `sw842_compress`, 842_compress.c 575-677, on an initialised
`p`; returns the value stored to `*olen`.  `addr` is the address of `in`. -/
def compBody (e : Endian) (addr : Nat) (fuel : Nat) (inp : List Byte) (total : Nat) :
    M Comp Nat := do
  if inp.length < 8 then pure ()
  else do
    let first ← M.access fun p => load64 e p.inp p.pos
    let rc ← compLoop e fuel (~~~ first) 0
    if rc ≠ 0 then addRepeat e rc else pure ()
  let p ← M.get
  if p.ilen > 0 then do
    addShortData e p.ilen
    M.modify fun p => { p with pos := p.pos + p.ilen, ilen := 0 }
  else pure ()
  liftW (addBits e 0x1E#64 5)
  let crc ← M.access fun _ => crc32be e addr 0#32 inp inp.length
  liftW (addBits e (crc.setWidth 64) 32)
  liftW (compPad total)
  let p ← M.get
  if total - p.w.olen > 0xffffffff then M.fail .ENOSPC
  else pure (total - p.w.olen)

/-- Uninitialised (malloc'ed) fields of `struct sw842_param`. -/
structure CompJunk where
  data8 : Nat → BitVec 64
  data4 : Nat → BitVec 32
  data2 : Nat → BitVec 16
  index8 : Nat → Int
  index4 : Nat → Int
  index2 : Nat → Int

/-- The state after 842_compress.c 548-561 -/
def compInit (j : CompJunk) (inp buf : List Byte) : Comp :=
  { inp := inp, pos := 0, ilen := inp.length
    w := { buf := buf, out := 0, olen := buf.length, bit := 0 }
    data8 := j.data8, data4 := j.data4, data2 := j.data2
    index8 := j.index8, index4 := j.index4, index2 := j.index2
    ht8 := fun _ => [], ht4 := fun _ => [], ht2 := fun _ => []
    node8 := fun _ => 0, node4 := fun _ => 0, node2 := fun _ => 0 }

/-- `sw842_compress(in, ilen, out, &olen)`, 842_compress.c 537-689 with
`SW842_STRICT == 0`, with an explicit bound on loop iterations.  `inp` is exactly
the `ilen` input bytes, `buf` the prior contents of the `*olen` output bytes, `addr`
the address of `in`, `j` the contents of freshly allocated memory. -/
def sw842CompressF (fuel : Nat) (e : Endian) (addr : Nat) (j : CompJunk) (inp buf : List Byte) :
    Call :=
  match compBody e addr fuel inp buf.length (compInit j inp buf) with
  | .ok n p => .ret none n p.w.buf
  | .err er p => .ret (some er) 0 p.w.buf
  | .ub => .ub
  | .timeout => .timeout

/-- `sw842_compress`: the main loop consumes 8 bytes per iteration, so
`ilen / 8 + 1` loop tests suffice. -/
def sw842Compress (e : Endian) (addr : Nat) (j : CompJunk) (inp buf : List Byte) : Call :=
  sw842CompressF (inp.length / 8 + 1) e addr j inp buf

end Lib842
