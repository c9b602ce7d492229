import Verif.Spec
import Mathlib.Data.List.Dedup
/-!
# Blocks of memory for the dictionaries

How much memory dictionaries of the last pieces of the data need, if there is one block for every piece and one
for every value that occurs among the pieces, and pieces are entered one after the other.
-/

namespace Lib842.Spec

/-- The pieces of `n` bytes that a dictionary of `N` entries holds after the first `k` pieces of `x`: the last `N` -/
def dictPieces (n N : Nat) (x : List Byte) (k : Nat) : List (List Byte) :=
  ((List.range k).drop (k - N)).map fun i => (x.drop (n * i)).take n

/-- One block for every piece and one for every value -/
def dictBlocks (n N : Nat) (x : List Byte) (k : Nat) : Nat :=
  (dictPieces n N x k).length + (dictPieces n N x k).dedup.length

/-- Blocks when `a` pieces of 8 bytes, `b` of 4 bytes and `c` of 2 bytes have been entered; one block for the compressor
itself -/
def compBlocks (x : List Byte) (s : Nat × Nat × Nat) : Nat :=
  1 + dictBlocks 8 256 x s.1 + dictBlocks 4 512 x s.2.1 + dictBlocks 2 256 x s.2.2

/-- The seven pieces of group `g` are entered one after the other: numbers of pieces after each of them. -/
def insertions (g : Nat) : List (Nat × Nat × Nat) :=
  [(g + 1, 2 * g, 4 * g), (g + 1, 2 * g + 1, 4 * g), (g + 1, 2 * g + 2, 4 * g), (g + 1, 2 * g + 2, 4 * g + 1),
   (g + 1, 2 * g + 2, 4 * g + 2), (g + 1, 2 * g + 2, 4 * g + 3), (g + 1, 2 * g + 2, 4 * g + 4)]

/-- The largest number of blocks at any time -/
def peakBlocks (x : List Byte) : Nat :=
  (((List.range (x.length / 8)).flatMap insertions).map (compBlocks x)).foldr max 1

end Lib842.Spec
