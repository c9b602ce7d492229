import Verif.SpecMin
/-!
# The size of a compressed stream as a function of the data

What the data says about the size: which groups repeat the one before, which are zero, and which of their parts occur in the ring buffers
(the last 512 bytes for 2-byte parts, the last 2048 bytes for parts of 4 and 8 bytes; 842.h 27-46), each at a multiple of its size.
-/

namespace Lib842.Spec

/-- The `n` bytes at `o` also are at a multiple of `n` in the ring buffer for `n`, when the data before `pos` has been written. -/
def seen (x : List Byte) (pos n o : Nat) : Bool :=
  (List.range (pos / n)).any fun k => decide (pos ≤ n * k + ringSize n ∧ (x.drop (n * k)).take n = (x.drop o).take n)

/-- Bits for the 2 bytes at `o`: an index or the bytes -/
def wordBits (x : List Byte) (pos o : Nat) : Nat := if seen x pos 2 o then 8 else 16

/-- Bits for the 4 bytes at `o` -/
def halfBits (x : List Byte) (pos o : Nat) : Nat := if seen x pos 4 o then 9 else wordBits x pos o + wordBits x pos (o + 2)

/-- Bits for group `i` on its own: the code (5 bits) and what follows it -/
def groupBits (x : List Byte) (i : Nat) : Nat :=
  if zeroGroup x i then 5
  else if seen x (8 * i) 8 (8 * i) then 5 + 8
  else 5 + halfBits x (8 * i) (8 * i) + halfBits x (8 * i) (8 * i + 4)

/-- Bits of the whole stream: groups and repeat ops (11 bits for up to 64 repetitions), the bytes after the last group, end and checksum -/
def sizeBits (x : List Byte) : Nat :=
  ((List.range (x.length / 8)).map fun i =>
    if reps x i = 0 then groupBits x i else if reps x i % 64 = 1 then 11 else 0).sum +
  (if x.length % 8 = 0 then 0 else 8 + 8 * (x.length % 8)) + 37

end Lib842.Spec
