import Verif.Model.CrcTable
/-!
# The CRC table generator (`/repo/src/tools/gen_crc32table.c`)
-/

namespace Lib842

/-- Inner loop of the first part, gen_crc32table.c 19-20: `k` iterations left, from `j`. -/
def genInner (crc : BitVec 32) (i : Nat) : (k j : Nat) → List (BitVec 32) → Option (List (BitVec 32))
  | 0, _, tab => some tab
  | k + 1, j, tab => do
    let t ← tab[j]?
    if i + j < tab.length then genInner crc i k (j + 1) (tab.set (i + j) (crc ^^^ t)) else none

/-- First part of `crc32init_be`, gen_crc32table.c 17-21: `for (i = 1; i < 256; i <<= 1)`,
`k` iterations left. -/
def genOuter : (k i : Nat) → BitVec 32 → List (BitVec 32) → Option (List (BitVec 32))
  | 0, _, _, tab => some tab
  | k + 1, i, crc, tab => do
    let crc := (crc <<< 1) ^^^ (if crc &&& 0x80000000#32 ≠ 0#32 then 0x04c11db7#32 else 0#32)
    let tab ← genInner crc i i 0 tab
    genOuter k (i <<< 1) crc tab

/-- Second part, gen_crc32table.c 22-28: the entries `[1..7][i]` for one `i`. -/
def genColumn (row0 : List (BitVec 32)) : (k : Nat) → BitVec 32 → Option (List (BitVec 32))
  | 0, _ => some []
  | k + 1, crc => do
    let t ← row0[((crc >>> 24) &&& 0xff#32).toNat]?
    let crc := t ^^^ (crc <<< 8)
    let rest ← genColumn row0 k crc
    pure (crc :: rest)

/-- `crc32init_be`, gen_crc32table.c 10-29: the columns of the table (`[i] = entries
[0..7][i]`).  The static array is zero initialised; `i` takes the 8 values 1, 2, .., 128. -/
def genTable : Option (List (List (BitVec 32))) := do
  let row0 ← genOuter 8 1 0x80000000#32 (List.replicate 256 0#32)
  row0.mapM fun c => do
    let col ← genColumn row0 7 c
    pure (c :: col)

end Lib842
