import Verif.Model.Ocl
import Verif.Model.OptComp
/-!
# The OpenCL kernel and its host code

`/repo/src/ocl/decompress.cl` 390-446 (one work item), `/repo/src/ocl/cl842decompress.cpp`
43-79, 346-457, 461-478 (launch), `/repo/sample/compdecomp_cl.cpp` 83-112 (packing).

Simplifications: a launch runs its work items one after the other, in an arbitrary order (see C82);
buffers are byte lists; an absent buffer argument (`NULL` in the kernel) is `none`.
-/

namespace Lib842
open Spec

/-- `LIB842_COMPRESSED_CHUNK_MARKER`, `/repo/include/lib842/common.h` -/
def chunkMarker : List Byte :=
  [0xbe, 0x5a, 0x46, 0xbf, 0x97, 0xe5, 0x2d, 0xd7, 0xb2, 0x7c, 0x94, 0x1a, 0xee, 0xd6, 0x70, 0x76]

/-- `CLDecompressorInputFormat`, `/repo/include/lib842/cl.h` 25-52 -/
inductive ClFormat
  | always
  | maybe
  | inplace
  deriving DecidableEq, Repr

/-- Does `my_in[0..1]` differ from the marker? decompress.cl 410-411 (the second word is
only read when the first one agrees); `none`: a word outside the object is read. -/
def notMarked (e : Endian) (m : List Byte) : Option Bool :=
  match load64 e m 0, load64 e chunkMarker 0 with
  | some a, some b =>
    if a ≠ b then some true
    else match load64 e m 8, load64 e chunkMarker 8 with
      | some a, some b => some (decide (a ≠ b))
      | _, _ => none
  | _, _ => none

/-- `for (size_t i = 0; i < k; i++) my_out[i] = my_in[i];`, decompress.cl 414-416 -/
def copyWords (inp : List Byte) (k : Nat) (buf : List Byte) : Option (List Byte) :=
  (readBytes inp 0 (8 * k)).bind (writeBytes buf 0)

/-- One work item, decompress.cl 407-446.  `inp` is the input object from `my_in` on
(ignored for the in-place format, where `my_in = my_out`); `buf` the output object from
`my_out` on; `ilen`, `olen` the elements of the length arrays, if these are given. -/
def oclItem (e : Endian) (fmt : ClFormat) (chunkSize : Nat) (inp buf : List Byte)
    (ilen olen : Option Nat) : Call :=
  match fmt with
  | .always => oclCore e (some inp) 0 (ilen.getD (2 ^ 64 - 1)) buf (olen.getD (2 ^ 64 - 1))
  | _ =>
    let src := if fmt = .maybe then some inp else none
    let my := src.getD buf
    match notMarked e my with
    | none => .ub
    | some true =>
      if fmt = .maybe then
        match copyWords inp (chunkSize / 8) buf with
        | none => .ub
        | some b => .ret none chunkSize b
      else .ret none chunkSize buf
    | some false =>
      match load64 e my 16 with
      | none => .ub
      | some n =>
        if n = 0#64 then .ret none chunkSize buf
        else oclCore e src ((BitVec.ofNat 64 chunkSize - n).toNat / 8) n.toNat buf (olen.getD (2 ^ 64 - 1))

/-- What the host packs into a chunk of `MAYBE`/`INPLACE_COMPRESSED_CHUNKS` input,
compdecomp_cl.cpp 91-112; `old` is what the chunk buffer holds before, `tmp` the temporary
buffer of `2 * CHUNK_SIZE` bytes; `ain`, `aout`, `j`, `jsw` are the addresses and the
workspace of the compressor.  The return value
of `optsw842_compress` is not looked at. -/
def packChunk (e : Endian) (ain aout : Nat) (j : OptJunk) (jsw : CompJunk) (chunk old tmp : List Byte) : Option (List Byte) :=
  match optsw842Compress e ain aout j jsw chunk tmp with
  | .ret _ n t =>
    if n > chunk.length - 16 - 8 then some chunk
    else
      (writeBytes old 0 chunkMarker).bind fun b =>
      (writeBytes b 16 (wordBytes64 e (BitVec.ofNat 64 n))).bind fun b =>
      writeBytes b (chunk.length - n) (t.take n)
  | _ => none

/-- Element `i` of an optional length array (/repo/src/ocl/decompress.cl 407, 439) -/
def optAt (l : Option (List Nat)) (i : Nat) : Option (Option Nat) :=
  match l with
  | none => some none
  | some l => (l[i]?).map some

/-- Result of a launch so far: output buffer, stored lengths and return values (the last
stored ones come first) (/repo/src/ocl/decompress.cl 390-395) -/
structure ClOut where
  buf : List Byte
  lens : List (Nat × Nat)
  rets : List (Nat × Option Errno)
  deriving DecidableEq, Repr

/-- Work item for chunk `i`, decompress.cl 404-446: `my_out` and `my_in` (lines 404-405) are
pointers into the two buffers.  In place, the two pointers agree only if stride and offsets
do; other in-place launches are not modelled (`none`). -/
def oclChunk (e : Endian) (fmt : ClFormat) (chunkSize stride inOff outOff : Nat) (inp : List Byte)
    (ilens olens : Option (List Nat)) (i : Nat) (s : ClOut) : Option ClOut :=
  let io := 8 * (inOff / 8 + stride / 8 * i)
  let oo := 8 * (outOff / 8 + chunkSize / 8 * i)
  if (fmt ≠ .inplace ∧ inp.length < io) ∨ (fmt = .inplace ∧ io ≠ oo) ∨ s.buf.length < oo then none
  else
    match optAt ilens i, optAt olens i with
    | some il, some ol =>
      match oclItem e fmt chunkSize (inp.drop io) (s.buf.drop oo) il ol with
      | .ret rc n b =>
        some { buf := s.buf.take oo ++ b, lens := (i, n) :: s.lens, rets := (i, rc) :: s.rets }
      | _ => none
    | _, _ => none

/-- `__kernel decompress` for work item `gid`, decompress.cl 397-402; `shuffle` is
`chunkShuffleMap`. -/
def oclWorkItem (e : Endian) (fmt : ClFormat) (chunkSize stride inOff outOff : Nat) (inp : List Byte)
    (ilens olens : Option (List Nat)) (numChunks : Nat) (shuffle : Option (List Nat)) (gid : Nat)
    (s : ClOut) : Option ClOut :=
  if gid ≥ numChunks then some s
  else match shuffle with
    | none => oclChunk e fmt chunkSize stride inOff outOff inp ilens olens gid s
    | some m => (m[gid]?).bind fun i => oclChunk e fmt chunkSize stride inOff outOff inp ilens olens i s

/-- Global size of the launch, cl842decompress.cpp 25, 73-74 -/
def oclGlobalSize (numChunks : Nat) : Nat := (numChunks + (256 - 1)) / 256 * 256

/-- A launch whose work items run in the order `order` (a permutation of
`0 .. globalSize - 1`); `none`: some access is out of bounds (or the fuel of the decoder
model runs out, which does not happen). -/
def oclLaunch (e : Endian) (fmt : ClFormat) (chunkSize stride inOff outOff : Nat) (inp : List Byte)
    (ilens olens : Option (List Nat)) (numChunks : Nat) (shuffle : Option (List Nat))
    (order : List Nat) (buf : List Byte) : Option ClOut :=
  order.foldlM (fun s gid => oclWorkItem e fmt chunkSize stride inOff outOff inp ilens olens
    numChunks shuffle gid s) { buf := buf, lens := [], rets := [] }

/-! ## Host code -/

/-- `numChunks`, cl842decompress.cpp 357 -/
def hostNumChunks (inputBufferSize stride : Nat) : Nat := (inputBufferSize + stride - 1) / stride

/-- Elements of `inputChunkSizes` and `outputChunkSizes` that `CLHostDecompressor::decompress`
reads, and elements of `returnValues` it writes, cl842decompress.cpp 361, 368, 382, 447-456 -/
def hostElements (inputBufferSize stride : Nat) : Nat := hostNumChunks inputBufferSize stride

/-- Elements that `cl842_decompress` passes (`&ilen`, `olen`, `&ret`), cl842decompress.cpp 470 -/
def clWrapperElements : Nat := 1

/-- Chunk stride used by `cl842_decompress`, cl842decompress.cpp 466 -/
def clWrapperStride : Nat := 99999

/-- `cl842_decompress`, cl842decompress.cpp 461-477.  The output is written to a device buffer with
contents `dev` (423-427), all of which is copied to `out` afterwards (436);
`order` is the order in which the work items run.  Undefined if more than one element of the
one-element arrays is used.  Not modelled: failures of the OpenCL runtime (`-ENOMEM`), among
them an empty input, for which an OpenCL buffer cannot be created. -/
def cl842Decompress (e : Endian) (order : List Nat) (dev : Nat → Byte) (inp buf : List Byte) : Call :=
  let n := hostNumChunks inp.length clWrapperStride
  if hostElements inp.length clWrapperStride ≠ clWrapperElements then .ub
  else
    match oclLaunch e .always 65536 clWrapperStride 0 0 inp (some [inp.length]) (some [buf.length]) n none order
        ((List.range (max 1 buf.length)).map dev) with
    | none => .ub
    | some out =>
      match out.lens, out.rets with
      | [(_, len)], [(_, rc)] => .ret rc len (out.buf.take buf.length)
      | _, _ => .ub

/-- Buffer parameters of `CLDeviceDecompressor::decompress`, in order, as declared
(`/repo/include/lib842/cl.h` 116-127). -/
def clDeclParams : List String :=
  ["commandQueue", "numChunks", "inputBuffer", "inputOffset", "inputChunkSizes", "outputBuffer",
   "outputOffset", "outputChunkSizes", "returnValues", "chunkShuffleMap", "events", "event"]

/-- The same as defined, cl842decompress.cpp 43-54 -/
def clDefParams : List String :=
  ["commandQueue", "numChunks", "inputBuffer", "inputOffset", "inputChunkSizes", "outputBuffer",
   "outputOffset", "outputChunkSizes", "chunkShuffleMap", "returnValues", "events", "event"]

/-- `setArg(k, …)`, cl842decompress.cpp 63-71 -/
def clSetArgs : List (Nat × String) :=
  [(0, "inputBuffer"), (1, "inputOffset"), (2, "inputChunkSizes"), (3, "outputBuffer"),
   (4, "outputOffset"), (5, "outputChunkSizes"), (6, "numChunks"), (7, "chunkShuffleMap"),
   (8, "returnValues")]

/-- Parameters of the kernel, decompress.cl 390-395, under the names of the host code -/
def clKernelParams : List String :=
  ["inputBuffer", "inputOffset", "inputChunkSizes", "outputBuffer", "outputOffset",
   "outputChunkSizes", "numChunks", "chunkShuffleMap", "returnValues"]

/-- The argument (by position in the call) that ends up in kernel parameter `k` (/repo/src/ocl/cl842decompress.cpp 63-71, /repo/src/ocl/decompress.cl 390-395) -/
def clKernelArg (k : Nat) : Option Nat :=
  (clSetArgs.lookup k).bind fun name => clDefParams.idxOf? name

end Lib842
