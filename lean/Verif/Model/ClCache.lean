import Verif.Model.Basic
/-!
# The cache of compiled OpenCL programs

`struct program_cache` and its use in `CLDeviceDecompressor::buildProgram`,
`/repo/src/ocl/cl842decompress.cpp` 90-265 (compiled in with
`LIB842_CLDECOMPRESS_USE_PROGRAM_CACHE`).  Assumed: `size_t` has 8 bytes, the enumeration has 4 (its
underlying type is `int`).  Streams are in the state `good` until an exception is thrown, because
`failbit` and `badbit` throw.
-/

namespace Lib842

/-- How a function ends: normally, with `std::ios_base::failure`, or with `std::bad_alloc` or
`std::length_error` (/repo/src/ocl/cl842decompress.cpp 104-185, 226-233) -/
inductive CRes (α : Type) where
  | ok (a : α)
  | failure
  | alloc
  deriving DecidableEq, Repr

/-- A computation that reads from a file; the state is the rest of the file (`std::ifstream`, /repo/src/ocl/cl842decompress.cpp 105-106) -/
def Rd (α : Type) := List Byte → CRes (α × List Byte)

namespace Rd

/-- A computation that reads nothing (part of the model only, no counterpart in /repo). -/
def pure {α : Type} (a : α) : Rd α := fun s => .ok (a, s)

/-- One computation after the other; an exception ends both (part of the model only, no counterpart in /repo). -/
def bind {α β : Type} (x : Rd α) (f : α → Rd β) : Rd β := fun s =>
  match x s with
  | .ok (a, s) => f a s
  | .failure => .failure
  | .alloc => .alloc

instance : Monad Rd where
  pure := pure
  bind := bind

/-- `in.read(p, n)` (/repo/src/ocl/cl842decompress.cpp 146, 157) -/
def bytes (n : Nat) : Rd (List Byte) := fun s =>
  if n ≤ s.length then .ok (s.take n, s.drop n) else .failure

/-- `in.read(&x, sizeof(x))` for a `size_t` (/repo/src/ocl/cl842decompress.cpp 134, 135, 140, 144, 155) -/
def size (e : Endian) : Rd (BitVec 64) := fun s =>
  match load64 e s 0 with
  | some v => .ok (v, s.drop 8)
  | none => .failure

/-- the same for 4 bytes -/
def word (e : Endian) : Rd (BitVec 32) := fun s =>
  match load32 e s 0 with
  | some v => .ok (v, s.drop 4)
  | none => .failure

/-- Allocation of `n` bytes, if at most `avail` can be allocated (/repo/src/ocl/cl842decompress.cpp 145, 156) -/
def alloc (avail n : Nat) : Rd Unit := fun s => if n ≤ avail then .ok ((), s) else .alloc

end Rd

/-- The members of `struct program_cache`, 94-102 -/
structure CacheKey where
  sourceHash : BitVec 32
  chunkSize : BitVec 64
  chunkStride : BitVec 64
  inputFormat : BitVec 32
  deviceNames : List (List Byte)
  deriving DecidableEq, Repr

/-- The loops of 142-148 and 153-159: `n` times a length and that many bytes -/
def readBlobs (e : Endian) (avail : Nat) : Nat → Rd (List (List Byte))
  | 0 => Rd.pure []
  | n + 1 => do
    let length ← Rd.size e
    Rd.alloc avail length.toNat
    let b ← Rd.bytes length.toNat
    let bs ← readBlobs e avail n
    Rd.pure (b :: bs)

/-- `readMetadata`, 133-149 -/
def readMetadata (e : Endian) (avail : Nat) : Rd CacheKey := do
  let chunkSize ← Rd.size e
  let chunkStride ← Rd.size e
  let inputFormat ← Rd.word e
  let sourceHash ← Rd.word e
  let numDevices ← Rd.size e
  let deviceNames ← readBlobs e avail numDevices.toNat
  Rd.pure ⟨sourceHash, chunkSize, chunkStride, inputFormat, deviceNames⟩

/-- `find`, 104-119; `file` is `none` if the file cannot be opened (then `exceptions` throws). -/
def cacheFind (e : Endian) (avail : Nat) (file : Option (List Byte)) (k : CacheKey) : CRes (List (List Byte)) :=
  match file with
  | none => .failure
  | some f =>
    match readMetadata e avail f with
    | .failure => .failure
    | .alloc => .alloc
    | .ok (d, rest) =>
      if k.chunkSize ≠ d.chunkSize ∨ k.chunkStride ≠ d.chunkStride ∨ k.inputFormat ≠ d.inputFormat ∨
          k.sourceHash ≠ d.sourceHash ∨ k.deviceNames ≠ d.deviceNames then .ok []
      else
        match readBlobs e avail k.deviceNames.length rest with
        | .failure => .failure
        | .alloc => .alloc
        | .ok (bs, _) => .ok bs

/-- The loops of 172-176 and 180-184 -/
def writeBlobs (e : Endian) (bs : List (List Byte)) : List Byte :=
  bs.flatMap fun b => wordBytes64 e (BitVec.ofNat 64 b.length) ++ b

/-- `writeMetadata`, 163-177 -/
def writeMetadata (e : Endian) (k : CacheKey) : List Byte :=
  wordBytes64 e k.chunkSize ++ wordBytes64 e k.chunkStride ++ wordBytes32 e k.inputFormat ++
    wordBytes32 e k.sourceHash ++ wordBytes64 e (BitVec.ofNat 64 k.deviceNames.length) ++ writeBlobs e k.deviceNames

/-- What `set`, 121-128, writes to the file, which is truncated first. -/
def cacheSet (e : Endian) (k : CacheKey) (binaries : List (List Byte)) : List Byte :=
  writeMetadata e k ++ writeBlobs e binaries

/-- How `buildProgram` ends: with a program built from the binaries, with a program built from the
source, with the exception for a failed build, or with one of the exceptions of above, not caught (/repo/src/ocl/cl842decompress.cpp 226-264) -/
inductive BuildRes
  | fromCache (binaries : List (List Byte))
  | fromSource
  | buildError
  | failure
  | alloc
  deriving DecidableEq, Repr

/-- `buildProgram` from 218 on.  `buildBin bs`: whether building from the binaries succeeds;
`buildSrc`: the binaries after building from the source, if that succeeds; `writable`: whether
the file can be written.  The second component is the cache file afterwards (if writing fails it
is not specified how much was written; `none` for that). -/
def buildProgram (e : Endian) (avail : Nat) (file : Option (List Byte)) (k : CacheKey)
    (buildBin : List (List Byte) → Bool) (buildSrc : Option (List (List Byte))) (writable : Bool) :
    BuildRes × Option (List Byte) :=
  -- 248-264
  let source : BuildRes × Option (List Byte) :=
    match buildSrc with
    | none => (.buildError, file)
    | some bs => if writable then (.fromSource, some (cacheSet e k bs)) else (.failure, none)
  match cacheFind e avail file k with
  | .alloc => (.alloc, file)
  | .failure => source
  | .ok bs =>
    if bs ≠ [] then
      if buildBin bs then (.fromCache bs, file) else source
    else source

end Lib842
