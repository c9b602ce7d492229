import Verif.Model.Chunked
/-!
# Blocks of the streams

`include/lib842/stream/block.h` and the `handle_block` functions of
`src/stream/DataCompressionStream.cpp` and `src/stream/DataDecompressionStream.cpp`.

Buffers are byte lists, a pointer is given by the bytes from it to the end of its buffer.  The
chunked (de)compression function of the implementation is a parameter: it takes the addresses of
the two buffers (for the alignment), then the arguments of the C function.  `ndebug` tells whether
`assert` is compiled out; a failing assertion is the outcome `abort`.  Arrays that the code does
not initialise get arbitrary contents (`rets0`, `sizes0`, `buf0`).

Simplifications: `aligned_alloc` succeeds; statistics are left out.
-/

namespace Lib842

/-- `CHUNK_SIZE`, stream/common.h 24 -/
def chunkSize : Nat := 65536
/-- `NUM_CHUNKS_PER_BLOCK`, stream/common.h 25 -/
def numChunks : Nat := 16
/-- `COMPRESSIBLE_THRESHOLD`, stream/common.h 30-37; the marker has 16 bytes -/
def compressibleThreshold : Nat := chunkSize - 16 - 8

/-- Outcome of a function of the streams (`assert`, exceptions and undefined behaviour in /repo/src/stream/DataCompressionStream.cpp 231-276, /repo/src/stream/DataDecompressionStream.cpp 210-256) -/
inductive BRes (α : Type) where
  | ok (a : α)
  /-- a failing `assert` -/
  | abort
  | ub
  | timeout
  deriving DecidableEq, Repr

/-- One function after the other; whatever is not a normal return ends both (part of the model only, no counterpart in /repo). -/
def BRes.bind {α β : Type} : BRes α → (α → BRes β) → BRes β
  | .ok a, f => f a
  | .abort, _ => .abort
  | .ub, _ => .ub
  | .timeout, _ => .timeout

instance : Monad BRes where
  pure := BRes.ok
  bind := BRes.bind

/-- A checked memory access (part of the model only, no counterpart in /repo) -/
def BRes.access {α : Type} : Option α → BRes α
  | some a => .ok a
  | none => .ub

/-- `assert(c)` (/repo/include/lib842/stream/block.h 39, 53, /repo/src/stream/DataDecompressionStream.cpp 69) -/
def bAssert (ndebug c : Bool) : BRes Unit := if ndebug || c then .ok () else .abort

/-- `struct Block`, block.h 22-32 and 65-69; `source` and `buf` (`chunk_buffer`) are `none` for
a null pointer. -/
structure Block where
  offset : Nat
  padding : Nat
  source : Option (List Byte)
  sizes : List Nat
  buf : Option (List Byte)
  deriving DecidableEq, Repr

/-- Pointer plus offset; a null pointer can only be moved by 0. -/
def ptrAdd (p : Option (List Byte)) (n : Nat) : BRes (Option (List Byte)) :=
  match p with
  | none => if n = 0 then .ok none else .ub
  | some m => if n ≤ m.length then .ok (some (m.drop n)) else .ub

/-- Read `n` bytes at a pointer (`memcpy`, /repo/src/stream/DataDecompressionStream.cpp 210-256) -/
def ptrRead (p : Option (List Byte)) (n : Nat) : BRes (List Byte) :=
  BRes.access (p.bind fun m => readBytes m 0 n)

/-- `Block::get_chunk`, block.h 49-57 -/
def Block.getChunk (ndebug : Bool) (b : Block) (i : Nat) : BRes (Option (List Byte)) := do
  let size ← BRes.access b.sizes[i]?
  if size = 0 then .ok none
  else if size = chunkSize then do
    bAssert ndebug b.source.isNone
    ptrAdd b.source (i * chunkSize)
  else ptrAdd b.buf (i * b.padding)

/-- A chunked function of an implementation: addresses of the input and the output buffer,
`numchunks`, `istride`, `ostride`, input buffer, `ilens` (/repo/include/lib842/common.h 38-41, 50-53) -/
abbrev ChunkedFn := (ain aout : Nat) → (numchunks istride ostride : Nat) → List Byte → List Nat →
  M ChState (Option Errno)

/-- The trivial chunked function (trivial_chunked.h) of a single-chunk function that takes the
addresses of its input and output (/repo/src/common/trivial_chunked.h 11-29) -/
def trivialChunked (f : ChunkFn) : ChunkedFn := fun ain aout =>
  chunked fun so d => f (ain + so) (aout + d)

/-- `DataCompressionStream::handle_block`, DataCompressionStream.cpp 231-276: `ptr` is the address
of `_ptr`, `inp` the bytes there, `abuf` the address of the allocated buffer. -/
def compBlock (cc : ChunkedFn) (ptr abuf : Nat) (inp : List Byte) (offset : Nat)
    (rets0 : List (Option Errno)) (sizes0 : List Nat) (buf0 : List Byte) : BRes Block := do
  let source ← ptrAdd (some inp) offset
  let src := source.getD []
  match cc (ptr + offset) abuf numChunks chunkSize chunkSize src (List.replicate numChunks chunkSize)
      ⟨rets0, buf0, List.replicate numChunks chunkSize⟩ with
  | .ub => .ub
  | .timeout => .timeout
  | .err _ _ | .ok (some _) _ => .ok ⟨SIZE_MAX, chunkSize, source, sizes0, none⟩
  | .ok none s =>
    -- 267-272
    let compressible := (s.rets.zip s.olens).map fun (r, n) => r == none && n ≤ compressibleThreshold
    let sizes := (compressible.zip s.olens).map fun (c, n) => if c then n else chunkSize
    .ok ⟨offset, chunkSize, source, sizes, if compressible.any id then some s.out else none⟩

/-- Loop body of `DataDecompressionStream::handle_block`, DataDecompressionStream.cpp 216-236:
the value of `input_chunk_sizes[i]` and the output buffer. -/
def prepChunk (ndebug : Bool) (b : Block) (i : Nat) (out : List Byte) : BRes (Nat × List Byte) := do
  let size ← BRes.access b.sizes[i]?
  if size = 0 then .ok (SIZE_MAX, out)
  else if size = chunkSize then do
    let p ← b.getChunk ndebug i
    let bytes ← ptrRead p chunkSize
    let out ← BRes.access (writeBytes out (b.offset + i * chunkSize) bytes)
    .ok (SIZE_MAX, out)
  else do
    bAssert ndebug (0 < size && size ≤ compressibleThreshold)
    .ok (size, out)

/-- The loop, 216-236, over the remaining chunk numbers -/
def prepLoop (ndebug : Bool) (b : Block) : List Nat → List Byte → BRes (List Nat × List Byte)
  | [], out => .ok ([], out)
  | i :: is, out => do
    let (l, out) ← prepChunk ndebug b i out
    let (ls, out) ← prepLoop ndebug b is out
    .ok (l :: ls, out)

/-- `DataDecompressionStream::handle_block`, DataDecompressionStream.cpp 210-256: `ptr` is the
address of `_ptr`, `out` the bytes there.  Result: the return value and the new contents of
the output buffer. -/
def decompBlock (ndebug : Bool) (dc : ChunkedFn) (ptr abuf : Nat) (b : Block) (rets0 : List (Option Errno))
    (out : List Byte) : BRes (Bool × List Byte) := do
  let (ilens, out) ← prepLoop ndebug b (List.range numChunks) out
  let dst ← ptrAdd (some out) b.offset
  match dc abuf (ptr + b.offset) numChunks b.padding chunkSize (b.buf.getD []) ilens
      ⟨rets0, dst.getD [], List.replicate numChunks chunkSize⟩ with
  | .ub => .ub
  | .timeout => .timeout
  | .err _ s | .ok (some _) s => .ok (false, out.take b.offset ++ s.out)
  | .ok none s => do
    -- 250-253
    bAssert ndebug (s.rets.all (· == none) && s.olens.all (· == chunkSize))
    .ok (true, out.take b.offset ++ s.out)

end Lib842
