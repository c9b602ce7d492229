/-!
# Independent specification of the 842 format

Transcribed from the prose description of the format in
`/repo/src/common/842.h` lines 4-118 (and the CRC parameters in
`/repo/src/common/crc32.h`, `crc32table.h`).  Nothing in this file refers to a
definition of the code model.
-/

namespace Lib842.Spec

/-- A byte. -/
abbrev Byte := BitVec 8

/-! ## Bit strings -/

/-- The `n` low bits of `v`, most significant bit first. -/
def bitsOf (n v : Nat) : List Bool :=
  (List.range n).map fun i => v.testBit (n - 1 - i)

/-- A byte string read as a bit string, most significant bit of each byte first. -/
def bytesBits (bs : List Byte) : List Bool :=
  bs.flatMap fun b => bitsOf 8 b.toNat

/-! ## CRC -/

/-- One step of the bit-serial CRC-32 (polynomial 0x04c11db7, MSB first). -/
def crcStep (c : BitVec 32) (b : Bool) : BitVec 32 :=
  if c.msb != b then (c <<< 1) ^^^ 0x04c11db7#32 else c <<< 1

/-- CRC of a byte string: initial value 0, no final inversion. -/
def crc (data : List Byte) : BitVec 32 :=
  (bytesBits data).foldl crcStep 0#32

/-! ## Ops -/

/-- A template action: `D n` copies `n` literal bytes, `I n` copies `n` bytes
from the ring buffer for size `n`. -/
inductive Action
  | D (n : Nat)
  | I (n : Nat)
  deriving DecidableEq, Repr

open Action in
/-- The template table, row = template code (0x00 .. 0x19). -/
def templates : List (List Action) := [
  [D 8],
  [D 4, D 2, I 2],
  [D 4, I 2, D 2],
  [D 4, I 2, I 2],
  [D 4, I 4],
  [D 2, I 2, D 4],
  [D 2, I 2, D 2, I 2],
  [D 2, I 2, I 2, D 2],
  [D 2, I 2, I 2, I 2],
  [D 2, I 2, I 4],
  [I 2, D 2, D 4],
  [I 2, D 4, I 2],
  [I 2, D 2, I 2, D 2],
  [I 2, D 2, I 2, I 2],
  [I 2, D 2, I 4],
  [I 2, I 2, D 4],
  [I 2, I 2, D 2, I 2],
  [I 2, I 2, I 2, D 2],
  [I 2, I 2, I 2, I 2],
  [I 2, I 2, I 4],
  [I 4, D 4],
  [I 4, D 2, I 2],
  [I 4, I 2, D 2],
  [I 4, I 2, I 2],
  [I 4, I 4],
  [I 8]]

/-- Number of bits of an index argument: 8 for I2, 9 for I4, 8 for I8. -/
def indexBits (size : Nat) : Nat := if size = 4 then 9 else 8

/-- Bytes covered by the ring buffer for the given size: 512, 2048, 2048. -/
def ringSize (size : Nat) : Nat := size * 2 ^ indexBits size

/-- A template argument as found in the stream. -/
inductive Arg
  | data (bs : List Byte)
  | index (size i : Nat)
  deriving DecidableEq, Repr

/-- The action an argument belongs to. -/
def Arg.action : Arg → Action
  | .data bs => .D bs.length
  | .index size _ => .I size

/-- How an argument is written. -/
def Arg.bits : Arg → List Bool
  | .data bs => bytesBits bs
  | .index size i => bitsOf (indexBits size) i

/-- The ops of the format, 842.h 4-118. -/
inductive Op
  /-- template code 0x00..0x19 with its arguments -/
  | template (code : Nat) (args : List Arg)
  /-- 0x1b: append the last 8 bytes `n + 1` more times -/
  | rep (n : Nat)
  /-- 0x1c: append 8 zero bytes -/
  | zeros
  /-- 0x1d (software only): append 1 to 7 literal bytes -/
  | short (bs : List Byte)
  deriving DecidableEq, Repr

/-- How an op is written: 5 bits for its code, then its arguments. -/
def Op.bits : Op → List Bool
  | .template code args => bitsOf 5 code ++ args.flatMap Arg.bits
  | .rep n => bitsOf 5 0x1b ++ bitsOf 6 n
  | .zeros => bitsOf 5 0x1c
  | .short bs => bitsOf 5 0x1d ++ bitsOf 3 bs.length ++ bytesBits bs

/-- An index fits into its bits. -/
def Arg.Valid : Arg → Prop
  | .data _ => True
  | .index size i => i < 2 ^ indexBits size

/-- Well-formedness of an op on its own (independent of the output so far). -/
def Op.Valid : Op → Prop
  | .template code args =>
      templates[code]? = some (args.map Arg.action) ∧ ∀ a ∈ args, a.Valid
  | .rep n => n < 64
  | .zeros => True
  | .short bs => 1 ≤ bs.length ∧ bs.length ≤ 7

/-! ## Meaning of ops -/

/-- With `len` bytes of output produced, index `i` of the ring buffer for
`size` denotes the `size` bytes at output offset `o`: the ring buffer holds the
last `ringSize size` bytes of the output that has been produced in complete
8-byte groups, and byte `o` of the output lives at ring position
`o % ringSize size`. -/
def RingRef (len size i o : Nat) : Prop :=
  let written := 8 * (len / 8)
  o % ringSize size = i * size ∧
  o + size ≤ written ∧
  written ≤ o + ringSize size

/-- Effect of one template argument on the output produced so far. -/
inductive ArgStep : List Byte → Arg → List Byte → Prop
  | data {out bs} : ArgStep out (.data bs) (out ++ bs)
  | index {out size i o} (h : RingRef out.length size i o) :
      ArgStep out (.index size i) (out ++ (out.drop o).take size)

/-- Effect of the arguments of a template, one after the other. -/
inductive ArgsRun : List Byte → List Arg → List Byte → Prop
  | nil {out} : ArgsRun out [] out
  | cons {out a out' as out''} :
      ArgStep out a out' → ArgsRun out' as out'' → ArgsRun out (a :: as) out''

/-- Effect of one op on the output produced so far. -/
inductive OpStep : List Byte → Op → List Byte → Prop
  | template {out code args out'} :
      ArgsRun out args out' → OpStep out (.template code args) out'
  | rep {out n} (h : 8 ≤ out.length) :
      OpStep out (.rep n)
        (out ++ (List.replicate (n + 1) (out.drop (out.length - 8))).flatten)
  | zeros {out} : OpStep out .zeros (out ++ List.replicate 8 0#8)
  | short {out bs} : OpStep out (.short bs) (out ++ bs)

/-- Effect of a list of ops, one after the other. -/
inductive Run : List Byte → List Op → List Byte → Prop
  | nil {out} : Run out [] out
  | cons {out op out' ops out''} :
      OpStep out op out' → Run out' ops out'' → Run out (op :: ops) out''

/-- Bits of the end marker followed by the CRC of the data. -/
def trailer (data : List Byte) : List Bool :=
  bitsOf 5 0x1e ++ bitsOf 32 (crc data).toNat

/-- `ops` is a well-formed op sequence that expands to `data`. -/
def Expands (ops : List Op) (data : List Byte) : Prop :=
  (∀ op ∈ ops, op.Valid) ∧ Run [] ops data

/-- `input` is a (software) 842 stream for `data`: a well-formed op sequence that
expands to `data`, the end marker, the CRC of `data`, and then arbitrary bits. -/
def Decodes (input data : List Byte) : Prop :=
  ∃ ops rest, Expands ops data ∧
    bytesBits input = ops.flatMap Op.bits ++ trailer data ++ rest

/-- Is it the op that exists only in software? -/
def Op.isShort : Op → Bool
  | .short _ => true
  | _ => false

/-- Same, restricted to the ops of the hardware format (no short data). -/
def HwDecodes (input data : List Byte) : Prop :=
  ∃ ops rest, Expands ops data ∧ (∀ op ∈ ops, op.isShort = false) ∧
    bytesBits input = ops.flatMap Op.bits ++ trailer data ++ rest

end Lib842.Spec
