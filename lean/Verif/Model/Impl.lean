import Verif.Model.Align
import Verif.Model.Chunked
import Verif.Model.OptComp
import Verif.Model.OptDecomp
import Verif.Model.SwComp
import Verif.Model.SwDecomp
/-!
# The tables of functions of the implementations that work in main memory

`struct lib842_implementation`, `/repo/include/lib842/common.h` 55-62.  The functions of `/repo/src/aix/aix.c` call the operating system, of which nothing is assumed here.
-/

namespace Lib842

/-- `struct lib842_implementation`, /repo/include/lib842/common.h 55-62.  All functions get the addresses of the input and of the output buffer first. -/
structure ImplTable where
  compress : Nat → Nat → ChunkFn
  decompress : Nat → Nat → ChunkFn
  compressChunked : Nat → Nat → (numchunks istride ostride : Nat) → List Byte → List Nat → M ChState (Option Errno)
  decompressChunked : Nat → Nat → (numchunks istride ostride : Nat) → List Byte → List Nat → M ChState (Option Errno)
  align : AlignInfo

/-- `sw842_decompress_chunked`, /repo/src/serial/842_compress.c 691 -/
def swDecompressChunked (e : Endian) (_ain aout numchunks istride ostride : Nat) (inp : List Byte) (ilens : List Nat) : M ChState (Option Errno) :=
  chunked (fun _ d src dst => sw842Decompress e (aout + d) src dst) numchunks istride ostride inp ilens

/-- `sw842_compress_chunked`, /repo/src/serial/842_compress.c 692 -/
def swCompressChunked (e : Endian) (j : CompJunk) (ain _aout numchunks istride ostride : Nat) (inp : List Byte) (ilens : List Nat) : M ChState (Option Errno) :=
  chunked (fun so _ src dst => sw842Compress e (ain + so) j src dst) numchunks istride ostride inp ilens

/-- `get_sw842_implementation`, /repo/src/serial/842_compress.c 694-704 -/
def swImpl (e : Endian) (j : CompJunk) : ImplTable where
  compress := fun ain _ so _ src dst => sw842Compress e (ain + so) j src dst
  decompress := fun _ aout _ d src dst => sw842Decompress e (aout + d) src dst
  compressChunked := swCompressChunked e j
  decompressChunked := swDecompressChunked e
  align := swAlign

/-- `optsw842_decompress_chunked`, /repo/src/serial_optimized/842_compress.cpp 684 -/
def optDecompressChunked (e : Endian) (ain aout numchunks istride ostride : Nat) (inp : List Byte) (ilens : List Nat) : M ChState (Option Errno) :=
  chunked (fun so d src dst => optsw842Decompress e (ain + so) (aout + d) src dst) numchunks istride ostride inp ilens

/-- `optsw842_compress_chunked`, /repo/src/serial_optimized/842_compress.cpp 685 -/
def optCompressChunked (e : Endian) (oj : OptJunk) (j : CompJunk) (ain aout numchunks istride ostride : Nat) (inp : List Byte) (ilens : List Nat) :
    M ChState (Option Errno) :=
  chunked (fun so d src dst => optsw842Compress e (ain + so) (aout + d) oj j src dst) numchunks istride ostride inp ilens

/-- `get_optsw842_implementation`, /repo/src/serial_optimized/842_compress.cpp 687-701 -/
def optImpl (e : Endian) (oj : OptJunk) (j : CompJunk) : ImplTable where
  compress := fun ain aout so d src dst => optsw842Compress e (ain + so) (aout + d) oj j src dst
  decompress := fun ain aout so d src dst => optsw842Decompress e (ain + so) (aout + d) src dst
  compressChunked := optCompressChunked e oj j
  decompressChunked := optDecompressChunked e
  align := optAlign

/-- Two functions of the operating system, `accel_compress` and `accel_decompress`: address of the input and of the output, input, old contents of the output (/repo/src/aix/aix.c 9, 14) -/
structure Accel where
  compress : Nat → Nat → List Byte → List Byte → Call
  decompress : Nat → Nat → List Byte → List Byte → Call

/-- `aix842_compress`, /repo/src/aix/aix.c 7-10 -/
def aixCompress (a : Accel) (ain aout : Nat) (inp out : List Byte) : Call := a.compress ain aout inp out

/-- `aix842_decompress`, /repo/src/aix/aix.c 12-15 -/
def aixDecompress (a : Accel) (ain aout : Nat) (inp out : List Byte) : Call := a.decompress ain aout inp out

/-- `aix842_decompress_chunked`, /repo/src/aix/aix.c 17 -/
def aixDecompressChunked (a : Accel) (ain aout numchunks istride ostride : Nat) (inp : List Byte) (ilens : List Nat) : M ChState (Option Errno) :=
  chunked (fun so d src dst => aixDecompress a (ain + so) (aout + d) src dst) numchunks istride ostride inp ilens

/-- `aix842_compress_chunked`, /repo/src/aix/aix.c 18 -/
def aixCompressChunked (a : Accel) (ain aout numchunks istride ostride : Nat) (inp : List Byte) (ilens : List Nat) : M ChState (Option Errno) :=
  chunked (fun so d src dst => aixCompress a (ain + so) (aout + d) src dst) numchunks istride ostride inp ilens

/-- `get_aix842_implementation`, /repo/src/aix/aix.c 20-31 -/
def aixImpl (a : Accel) : ImplTable where
  compress := fun ain aout so d src dst => aixCompress a (ain + so) (aout + d) src dst
  decompress := fun ain aout so d src dst => aixDecompress a (ain + so) (aout + d) src dst
  compressChunked := aixCompressChunked a
  decompressChunked := aixDecompressChunked a
  align := aixAlign

end Lib842
