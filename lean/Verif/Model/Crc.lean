import Verif.Model.Basic
import Verif.Model.CrcTable
/-!
# `crc32_be` (`/repo/src/common/crc32.h`)
-/

namespace Lib842

/-- `crc32table_be[k][i]`: the table initialiser applies `tobe`
(`/repo/src/common/crc32table.h` 4-9), a byte swap on little-endian hosts.
Out-of-range indices are `none`. -/
def crcTab (e : Endian) (k i : Nat) : Option (BitVec 32) :=
  match crcRows[k]? with
  | some row => (row[i]?).map (swapBe32 e)
  | none => none

/-- `DO_CRC(x)`, crc32.h 13 (little endian) and 19 (big endian) -/
def doCrc (e : Endian) (crc : BitVec 32) (x : Byte) : Option (BitVec 32) :=
  match e with
  | .little => do
    let t ← crcTab e 0 ((crc ^^^ x.setWidth 32) &&& 255#32).toNat
    pure (t ^^^ (crc >>> 8))
  | .big => do
    let t ← crcTab e 0 (((crc >>> 24) ^^^ x.setWidth 32) &&& 255#32).toNat
    pure (t ^^^ (crc <<< 8))

/-- `DO_CRC4` (`base = 0`) and `DO_CRC8` (`base = 4`), crc32.h 14-17, 20-23 -/
def doCrcWord (e : Endian) (base : Nat) (q : BitVec 32) : Option (BitVec 32) :=
  match e with
  | .little => do
    let a ← crcTab e (base + 3) (q &&& 255#32).toNat
    let b ← crcTab e (base + 2) ((q >>> 8) &&& 255#32).toNat
    let c ← crcTab e (base + 1) ((q >>> 16) &&& 255#32).toNat
    let d ← crcTab e base ((q >>> 24) &&& 255#32).toNat
    pure (a ^^^ b ^^^ c ^^^ d)
  | .big => do
    let a ← crcTab e base (q &&& 255#32).toNat
    let b ← crcTab e (base + 1) ((q >>> 8) &&& 255#32).toNat
    let c ← crcTab e (base + 2) ((q >>> 16) &&& 255#32).toNat
    let d ← crcTab e (base + 3) ((q >>> 24) &&& 255#32).toNat
    pure (a ^^^ b ^^^ c ^^^ d)

/-- Alignment prologue, crc32.h 35-40: bytes are consumed while the address
`addr + i` is not a multiple of 4 and bytes are left.  Returns the CRC, the next
offset and the remaining length. -/
def crcAlign (e : Endian) (addr : Nat) (m : List Byte) :
    (len i : Nat) → BitVec 32 → Option (BitVec 32 × Nat × Nat)
  | 0, i, crc => some (crc, i, 0)
  | len + 1, i, crc =>
    if (addr + i) % 4 = 0 then some (crc, i, len + 1)
    else do
      let x ← m[i]?
      let crc ← doCrc e crc x
      crcAlign e addr m len (i + 1) crc

/-- Main loop, crc32.h 45-53: `n` steps of two 32-bit words each. -/
def crcWords (e : Endian) (m : List Byte) : (n i : Nat) → BitVec 32 → Option (BitVec 32 × Nat)
  | 0, i, crc => some (crc, i)
  | n + 1, i, crc => do
    let w0 ← load32 e m i
    let crc ← doCrcWord e 4 (crc ^^^ w0)
    let w1 ← load32 e m (i + 4)
    let t ← doCrcWord e 0 w1
    crcWords e m n (i + 8) (crc ^^^ t)

/-- Tail, crc32.h 58-62 -/
def crcTail (e : Endian) (m : List Byte) : (n i : Nat) → BitVec 32 → Option (BitVec 32)
  | 0, _, crc => some crc
  | n + 1, i, crc => do
    let x ← m[i]?
    let crc ← doCrc e crc x
    crcTail e m n (i + 1) crc

/-- `crc32_be(crc, buf, len)`, crc32.h 10-65.  `m` is the memory object starting
at `buf`, `addr` the numeric address of `buf` (only its value modulo 4 matters).
`none` is an out-of-bounds access. -/
def crc32be (e : Endian) (addr : Nat) (crc : BitVec 32) (m : List Byte) (len : Nat) :
    Option (BitVec 32) := do
  let (crc, i, len) ← crcAlign e addr m len 0 crc
  let (crc, i) ← crcWords e m (len / 8) i crc
  let crc ← crcTail e m (len % 8) i crc
  pure (swapBe32 e crc)

end Lib842
