import Verif.Spec
/-!
# Chunk format of the OpenCL decompressor

Documentation in `/repo/include/lib842/cl.h` 22-52, `/repo/include/lib842/common.h`
(`LIB842_COMPRESSED_CHUNK_MARKER`) and `/repo/sample/compdecomp_cl.cpp` 60-84.
-/

namespace Lib842.Spec

/-- The marker in front of a compressed chunk. -/
def marker : List Byte :=
  [0xbe, 0x5a, 0x46, 0xbf, 0x97, 0xe5, 0x2d, 0xd7, 0xb2, 0x7c, 0x94, 0x1a, 0xee, 0xd6, 0x70, 0x76]

/-- The 8 bytes of a size in little-endian order. -/
def sizeBytes (n : Nat) : List Byte := (List.range 8).map fun i => BitVec.ofNat 8 (n / 2 ^ (8 * i))

/-- A chunk stored compressed: marker, size (in the byte order of the machine), the stream
at the very end. -/
def StoredCompressed (little : Bool) (x c : List Byte) : Prop :=
  c.length = x.length ∧ c.take 16 = marker ∧ ∃ n, 0 < n ∧ n % 8 = 0 ∧ n + 24 ≤ x.length ∧
    (c.drop 16).take 8 = (if little then sizeBytes n else (sizeBytes n).reverse) ∧
    HwDecodes (c.drop (x.length - n)) x

/-- In-place decoding of a stream of `n` bytes at the end of a chunk of `c` bytes: after every
prefix of the ops, what has been written ends before the first input byte that has not been
fetched (the decoder has fetched the words the ops read so far are in, and six more). -/
def RoomInPlace (c n : Nat) (ops : List Op) : Prop :=
  ∀ pre post o, ops = pre ++ post → Run [] pre o →
    o.length ≤ (c - n) + 8 * (((pre.flatMap Op.bits).length + 63) / 64 + 6) ∨
    n ≤ 8 * (((pre.flatMap Op.bits).length + 63) / 64 + 6)

end Lib842.Spec
