import Verif.Model.Basic
import Verif.Model.OclKernel
/-!
# The options for compiling the OpenCL kernel

`CLDeviceDecompressor::buildProgram`, `/repo/src/ocl/cl842decompress.cpp` 199-217.  Numbers are written to a `std::ostringstream`, which has
the global locale of the program: `std::num_put` inserts the separators that this asks for.
-/

namespace Lib842

/-- `std::numpunct<char>` of the global locale: `thousands_sep()` and the group sizes of `grouping()` (from the right; the last one is repeated;
0 stands for values that end the grouping). -/
structure NumPunct where
  sep : Char
  grouping : List Nat

/-- The locale of a program that has not set any (the stream of /repo/src/ocl/cl842decompress.cpp 199 has it then) -/
def NumPunct.classic : NumPunct := ⟨',', []⟩

/-- The digits of a number from the right (20 are enough for `size_t`) -/
def digitsRev : Nat → Nat → List Char
  | 0, _ => []
  | f + 1, n => Nat.digitChar (n % 10) :: if n < 10 then [] else digitsRev f (n / 10)

/-- Insertion of the separators, from the right (`std::num_put`, called by /repo/src/ocl/cl842decompress.cpp 200-209) -/
def groupRev (sep : Char) : Nat → List Nat → List Char → List Char
  | 0, _, ds => ds
  | _, [], ds => ds
  | f + 1, g :: gs, ds =>
    if g = 0 ∨ ds.length ≤ g then ds
    else ds.take g ++ sep :: groupRev sep f (if gs.isEmpty then [g] else gs) (ds.drop g)

/-- `options << n` for a `size_t` or an `int` that is not negative, and for a `double` with the value of a byte (which has neither a fraction nor
an exponent) (/repo/src/ocl/cl842decompress.cpp 200-203, 209) -/
def putNumber (p : NumPunct) (n : Nat) : List Char := (groupRev p.sep 20 p.grouping (digitsRev 20 n)).reverse

/-- `std::copy(…, std::ostream_iterator<double>(options, ","))`, 211-213 -/
def putMarker (p : NumPunct) (marker : List Byte) : List Char := marker.flatMap fun b => putNumber p b.toNat ++ [',']

/-- `options`, 199-217 (`EINVAL` and `ENOSPC` have the values of Linux) -/
def buildOptions (p : NumPunct) (chunkSize chunkStride : BitVec 64) (fmt : ClFormat) : List Char :=
  "-D CL842_CHUNK_SIZE=".toList ++ putNumber p chunkSize.toNat ++
  " -D CL842_CHUNK_STRIDE=".toList ++ putNumber p chunkStride.toNat ++
  " -D EINVAL=".toList ++ putNumber p 22 ++
  " -D ENOSPC=".toList ++ putNumber p 28 ++
  (if fmt = .maybe ∨ fmt = .inplace then
    " -D LIB842_COMPRESSED_CHUNK_MARKER_DEF={".toList ++ putMarker p chunkMarker ++ ['}'] else []) ++
  (if fmt = .maybe then " -D USE_MAYBE_COMPRESSED_CHUNKS=1".toList
   else if fmt = .inplace then " -D USE_INPLACE_COMPRESSED_CHUNKS=1".toList else [])

end Lib842
