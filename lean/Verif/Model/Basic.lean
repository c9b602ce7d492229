import Verif.Spec
/-!
# Machine model: bytes, byte order, outcomes, checked memory accesses
-/

namespace Lib842

export Spec (Byte)

/-- Byte order of the host (`__BYTE_ORDER__`) (/repo/src/common/endianness.h 17, 25, 46, 54, 79, 87) -/
inductive Endian
  | little
  | big
  deriving DecidableEq, Repr

/-- The errno values returned (negated) by the modelled functions (`EINVAL`, `ENOSPC`, `EOVERFLOW`, e.g. /repo/src/serial/842_compress.c 227, 259, /repo/src/serial/842_decompress.c 123) -/
inductive Errno
  | EINVAL
  | ENOSPC
  | EOVERFLOW
  deriving DecidableEq, Repr

/-- Outcome of a C function on a state: normal return, error return (the state
reached is kept), undefined behaviour, or (only for fuel-bounded loops) fuel
exhausted (return values as documented in /repo/include/lib842/common.h 17, 27; the other two outcomes are part of the model only, no counterpart in /repo) -/
inductive Outcome (σ α : Type) where
  | ok (a : α) (s : σ)
  | err (e : Errno) (s : σ)
  | ub
  | timeout
  deriving DecidableEq, Repr

/-- Computations over a state (part of the model only, no counterpart in /repo) -/
def M (σ α : Type) := σ → Outcome σ α

namespace M
variable {σ α β : Type}

/-- A computation that changes nothing (part of the model only, no counterpart in /repo). -/
def pure (a : α) : M σ α := fun s => .ok a s

/-- One computation after the other; an error, undefined behaviour or exhausted fuel ends both (part of the model only, no counterpart in /repo). -/
def bind (x : M σ α) (f : α → M σ β) : M σ β := fun s =>
  match x s with
  | .ok a s' => f a s'
  | .err e s' => .err e s'
  | .ub => .ub
  | .timeout => .timeout

instance : Monad (M σ) where
  pure := M.pure
  bind := M.bind

/-- `return -errno` (e.g. /repo/src/serial/842_compress.c 227) -/
def fail (e : Errno) : M σ α := fun s => .err e s
/-- undefined behaviour (part of the model only, no counterpart in /repo) -/
def ub : M σ α := fun _ => .ub
/-- fuel exhausted (part of the model only, no counterpart in /repo) -/
def timeout : M σ α := fun _ => .timeout
/-- The state (part of the model only, no counterpart in /repo). -/
def get : M σ σ := fun s => .ok s s
/-- Change the state (part of the model only, no counterpart in /repo). -/
def modify (f : σ → σ) : M σ Unit := fun s => .ok () (f s)
/-- a checked memory access: `none` is an out-of-bounds access (part of the model only, no counterpart in /repo) -/
def access (f : σ → Option α) : M σ α := fun s =>
  match f s with
  | some a => .ok a s
  | none => .ub
/-- a checked memory update (part of the model only, no counterpart in /repo) -/
def update (f : σ → Option σ) : M σ Unit := fun s =>
  match f s with
  | some s' => .ok () s'
  | none => .ub
/-- run a computation, ignoring its return code (the state change stays) (/repo/src/serial/842_compress.c 600) -/
def ignore (x : M σ Unit) : M σ Unit := fun s =>
  match x s with
  | .err _ s' => .ok () s'
  | o => o

/-- `do { body } while (!done)` where `body` says whether it is done, with a bound on
the number of iterations (e.g. /repo/src/serial/842_decompress.c 316-386, /repo/src/serial_optimized/842_decompress.cpp 303-547) -/
def doWhile (body : M σ Bool) : (fuel : Nat) → M σ Unit
  | 0 => M.timeout
  | fuel + 1 => do
    let done ← body
    if done then pure () else doWhile body fuel

end M

/-! ## Memory -/

/-- Read `k` bytes at offset `i` (unaligned loads /repo/src/common/memaccess.h 6-8, `memcpy`) -/
def readBytes (m : List Byte) (i k : Nat) : Option (List Byte) :=
  if i + k ≤ m.length then some ((m.drop i).take k) else none

/-- Overwrite the bytes at offset `i` (unaligned stores /repo/src/common/memaccess.h 10-12, `memcpy`) -/
def writeBytes (m : List Byte) (i : Nat) (bs : List Byte) : Option (List Byte) :=
  if i + bs.length ≤ m.length then
    some (m.take i ++ bs ++ m.drop (i + bs.length))
  else none

/-- Native 16-bit load (`get_unaligned16`, `/repo/src/serial/kerneldeps.h` 28-32;
`read16`, `/repo/src/common/memaccess.h` 6). -/
def load16 (e : Endian) (m : List Byte) (i : Nat) : Option (BitVec 16) :=
  match readBytes m i 2 with
  | some [a, b] =>
    some (match e with
      | .little => b ++ a
      | .big => a ++ b)
  | _ => none

/-- Native 32-bit load (kerneldeps.h 34-38, memaccess.h 7). -/
def load32 (e : Endian) (m : List Byte) (i : Nat) : Option (BitVec 32) :=
  match readBytes m i 4 with
  | some [a, b, c, d] =>
    some (match e with
      | .little => d ++ c ++ b ++ a
      | .big => a ++ b ++ c ++ d)
  | _ => none

/-- Native 64-bit load (kerneldeps.h 40-44, memaccess.h 8). -/
def load64 (e : Endian) (m : List Byte) (i : Nat) : Option (BitVec 64) :=
  match readBytes m i 8 with
  | some [a, b, c, d, f, g, h, k] =>
    some (match e with
      | .little => k ++ h ++ g ++ f ++ d ++ c ++ b ++ a
      | .big => a ++ b ++ c ++ d ++ f ++ g ++ h ++ k)
  | _ => none

/-- The bytes of a 16-bit word in memory order. -/
def wordBytes16 (e : Endian) (v : BitVec 16) : List Byte :=
  match e with
  | .little => [v.extractLsb' 0 8, v.extractLsb' 8 8]
  | .big => [v.extractLsb' 8 8, v.extractLsb' 0 8]

/-- The bytes of a `uint32_t` in memory, /repo/src/common/memaccess.h 4, 11. -/
def wordBytes32 (e : Endian) (v : BitVec 32) : List Byte :=
  match e with
  | .little => [v.extractLsb' 0 8, v.extractLsb' 8 8, v.extractLsb' 16 8, v.extractLsb' 24 8]
  | .big => [v.extractLsb' 24 8, v.extractLsb' 16 8, v.extractLsb' 8 8, v.extractLsb' 0 8]

/-- The bytes of a `uint64_t` in memory, /repo/src/common/memaccess.h 4, 12. -/
def wordBytes64 (e : Endian) (v : BitVec 64) : List Byte :=
  match e with
  | .little => [v.extractLsb' 0 8, v.extractLsb' 8 8, v.extractLsb' 16 8, v.extractLsb' 24 8,
      v.extractLsb' 32 8, v.extractLsb' 40 8, v.extractLsb' 48 8, v.extractLsb' 56 8]
  | .big => [v.extractLsb' 56 8, v.extractLsb' 48 8, v.extractLsb' 40 8, v.extractLsb' 32 8,
      v.extractLsb' 24 8, v.extractLsb' 16 8, v.extractLsb' 8 8, v.extractLsb' 0 8]

/-- Native stores (`put_unaligned_leN`, kerneldeps.h 46-62: despite the name they
store in native order; `writeN`, memaccess.h 10-12). -/
def store16 (e : Endian) (m : List Byte) (i : Nat) (v : BitVec 16) : Option (List Byte) :=
  writeBytes m i (wordBytes16 e v)
/-- `write32`, /repo/src/common/memaccess.h 11. -/
def store32 (e : Endian) (m : List Byte) (i : Nat) (v : BitVec 32) : Option (List Byte) :=
  writeBytes m i (wordBytes32 e v)
/-- `write64`, /repo/src/common/memaccess.h 12. -/
def store64 (e : Endian) (m : List Byte) (i : Nat) (v : BitVec 64) : Option (List Byte) :=
  writeBytes m i (wordBytes64 e v)

/-! ## Byte swapping (`/repo/src/common/endianness.h`)

The portable C branch is modelled; the x86 `xchgb`/`bswap` instructions are
assumed to compute the same function. -/

/-- `swap_endianness16`, endianness.h 4-14 -/
def swap16 (x : BitVec 16) : BitVec 16 :=
  ((x &&& 0x00ff#16) <<< 8) ||| ((x &&& 0xff00#16) >>> 8)

/-- `swap_endianness32`, endianness.h 32-43 -/
def swap32 (x : BitVec 32) : BitVec 32 :=
  ((x &&& 0x000000ff#32) <<< 24) ||| ((x &&& 0x0000ff00#32) <<< 8) |||
  ((x &&& 0x00ff0000#32) >>> 8) ||| ((x &&& 0xff000000#32) >>> 24)

/-- `swap_endianness64`, endianness.h 61-76 -/
def swap64 (x : BitVec 64) : BitVec 64 :=
  ((x &&& 0x00000000000000ff#64) <<< 56) ||| ((x &&& 0x000000000000ff00#64) <<< 40) |||
  ((x &&& 0x0000000000ff0000#64) <<< 24) ||| ((x &&& 0x00000000ff000000#64) <<< 8) |||
  ((x &&& 0x000000ff00000000#64) >>> 8) ||| ((x &&& 0x0000ff0000000000#64) >>> 24) |||
  ((x &&& 0x00ff000000000000#64) >>> 40) ||| ((x &&& 0xff00000000000000#64) >>> 56)

/-- `swap_be_to_nativeN` / `swap_native_to_beN` (the two are textually identical),
endianness.h 16-30, 45-59, 78-92 -/
def swapBe16 (e : Endian) (x : BitVec 16) : BitVec 16 :=
  match e with | .little => swap16 x | .big => x
/-- `swap_be_to_native32`, `swap_native_to_be32`, /repo/src/common/endianness.h 45-59. -/
def swapBe32 (e : Endian) (x : BitVec 32) : BitVec 32 :=
  match e with | .little => swap32 x | .big => x
/-- `swap_be_to_native64`, `swap_native_to_be64`, /repo/src/common/endianness.h 78-92. -/
def swapBe64 (e : Endian) (x : BitVec 64) : BitVec 64 :=
  match e with | .little => swap64 x | .big => x

end Lib842
