import Verif.Model.Call
/-!
# Multi-chunk entry points (`/repo/src/common/trivial_chunked.h`)

The macro is instantiated for `sw842_(de)compress` (`/repo/src/serial/842_compress.c`
691-692) and `optsw842_(de)compress` (`/repo/src/serial_optimized/842_compress.cpp` 684-685);
`LIB842_DEFINE_TRIVIAL_CHUNKED_DECOMPRESS` is the same macro under another name, so it does
not matter that the names are exchanged there.

The single-chunk function is a parameter `f soffset doffset src dst`: offsets of the
chunk in the two buffers (they determine the alignment), the input bytes, the prior contents of
the output region.  Input and output buffers do not overlap.
-/

namespace Lib842

/-- The memory a chunked call may change: `rets`, the output buffer, `olens`.  A return
code is `none` for 0. -/
structure ChState where
  rets : List (Option Errno)
  out : List Byte
  olens : List Nat
  deriving DecidableEq, Repr

/-- `SIZE_MAX` (/repo/src/common/trivial_chunked.h 19; `size_t` has 64 bits) -/
def SIZE_MAX : Nat := 2 ^ 64 - 1

/-- Type of the single-chunk function (`lib842_compress_func`, /repo/include/lib842/common.h 18-19, 28-29) -/
abbrev ChunkFn := Nat → Nat → List Byte → List Byte → Call

/-- Loop body, trivial_chunked.h 20-27; returns the new value of `ret`. -/
def chunkedBody (f : ChunkFn) (inp : List Byte) (ilens : List Nat) (i soffset doffset : Nat)
    (ret : Option Errno) : M ChState (Option Errno) := do
  let ilen ← M.access fun _ => ilens[i]?
  if ilen = SIZE_MAX then pure ret
  else do
    let src ← M.access fun _ => readBytes inp soffset ilen
    let olen ← M.access fun s => s.olens[i]?
    let dst ← M.access fun s => readBytes s.out doffset olen
    match f soffset doffset src dst with
    | .ub => M.ub
    | .timeout => M.timeout
    | .ret rc n buf => do
      M.update fun s => (writeBytes s.out doffset buf).map fun o => { s with out := o }
      M.update fun s =>
        if i < s.rets.length then
          some { s with rets := s.rets.set i rc, olens := s.olens.set i n }
        else none
      pure (if ret = none ∧ (rc ≠ none ∧ rc ≠ some .ENOSPC) then rc else ret)

/-- The loop, trivial_chunked.h 17-28: the counter and both offsets are `unsigned int`. -/
def chunkedLoop (f : ChunkFn) (numchunks istride ostride : Nat) (inp : List Byte)
    (ilens : List Nat) : (fuel i soffset doffset : Nat) → Option Errno → M ChState Unit
  | 0, _, _, _, _ => M.timeout
  | fuel + 1, i, soffset, doffset, ret =>
    if i < numchunks then do
      let ret ← chunkedBody f inp ilens i soffset doffset ret
      chunkedLoop f numchunks istride ostride inp ilens fuel ((i + 1) % 2 ^ 32)
        ((soffset + istride) % 2 ^ 32) ((doffset + ostride) % 2 ^ 32) ret
    else pure ()

/-- A chunked entry point, trivial_chunked.h 12-31; the result is the return value. -/
def chunkedF (fuel : Nat) (f : ChunkFn) (numchunks istride ostride : Nat) (inp : List Byte)
    (ilens : List Nat) : M ChState (Option Errno) := do
  chunkedLoop f numchunks istride ostride inp ilens fuel 0 0 0 none
  pure none

/-- The same with enough fuel for `numchunks < 2^32`. -/
def chunked (f : ChunkFn) (numchunks istride ostride : Nat) (inp : List Byte)
    (ilens : List Nat) : M ChState (Option Errno) :=
  chunkedF (numchunks + 1) f numchunks istride ostride inp ilens

end Lib842
