/-!
# Template tables not used by the configuration that is built

The tables and formulas of the branch-free variants, the CUDA kernel, the OpenCL kernel
and the HLS tokenizer.  (The tables of the serial codec are in `SwComp` and `SwDecomp`,
the switches of the optimized codec in `OptComp` and `OptDecomp`.)
-/

namespace Lib842

/-- `templates`, `/repo/src/common/opcodes.h` 236-285 (used with `BRANCH_FREE` 1): position
of the payload in `dataAndIndices` and number of bits. -/
def bfTemplates : List (List (Nat × Nat)) := [
  [(6, 64), (15, 0), (15, 0), (15, 0)],
  [(4, 32), (2, 16), (10, 8), (15, 0)],
  [(4, 32), (9, 8), (3, 16), (15, 0)],
  [(4, 32), (9, 8), (10, 8), (15, 0)],
  [(4, 32), (12, 9), (15, 0), (15, 0)],
  [(0, 16), (8, 8), (5, 32), (15, 0)],
  [(0, 16), (8, 8), (2, 16), (10, 8)],
  [(0, 16), (8, 8), (9, 8), (3, 16)],
  [(0, 16), (8, 8), (9, 8), (10, 8)],
  [(0, 16), (8, 8), (12, 9), (15, 0)],
  [(7, 8), (1, 16), (5, 32), (15, 0)],
  [(7, 8), (14, 32), (10, 8), (15, 0)],
  [(7, 8), (1, 16), (9, 8), (3, 16)],
  [(7, 8), (1, 16), (9, 8), (10, 8)],
  [(7, 8), (1, 16), (12, 9), (15, 0)],
  [(7, 8), (8, 8), (5, 32), (15, 0)],
  [(7, 8), (8, 8), (2, 16), (10, 8)],
  [(7, 8), (8, 8), (9, 8), (3, 16)],
  [(7, 8), (8, 8), (9, 8), (10, 8)],
  [(7, 8), (8, 8), (12, 9), (15, 0)],
  [(11, 9), (5, 32), (15, 0), (15, 0)],
  [(11, 9), (2, 16), (10, 8), (15, 0)],
  [(11, 9), (9, 8), (3, 16), (15, 0)],
  [(11, 9), (9, 8), (10, 8), (15, 0)],
  [(11, 9), (12, 9), (15, 0), (15, 0)],
  [(13, 8), (15, 0), (15, 0), (15, 0)]]

/-- `dec_templates`, `/repo/src/cuda/842_decompress.cu` 27-61 with the macros of
`/repo/src/common/842.h` 127-137: bits (with 0x80 for an index) and destination size. -/
def cudaTemplates : List (List (Nat × Nat)) := [
  [(0x40, 8), (0x00, 0), (0x00, 0), (0x00, 0)],
  [(0x20, 4), (0x10, 2), (0x88, 2), (0x00, 0)],
  [(0x20, 4), (0x88, 2), (0x10, 2), (0x00, 0)],
  [(0x20, 4), (0x88, 2), (0x88, 2), (0x00, 0)],
  [(0x20, 4), (0x89, 4), (0x00, 0), (0x00, 0)],
  [(0x10, 2), (0x88, 2), (0x20, 4), (0x00, 0)],
  [(0x10, 2), (0x88, 2), (0x10, 2), (0x88, 2)],
  [(0x10, 2), (0x88, 2), (0x88, 2), (0x10, 2)],
  [(0x10, 2), (0x88, 2), (0x88, 2), (0x88, 2)],
  [(0x10, 2), (0x88, 2), (0x89, 4), (0x00, 0)],
  [(0x88, 2), (0x10, 2), (0x20, 4), (0x00, 0)],
  [(0x88, 2), (0x20, 4), (0x88, 2), (0x00, 0)],
  [(0x88, 2), (0x10, 2), (0x88, 2), (0x10, 2)],
  [(0x88, 2), (0x10, 2), (0x88, 2), (0x88, 2)],
  [(0x88, 2), (0x10, 2), (0x89, 4), (0x00, 0)],
  [(0x88, 2), (0x88, 2), (0x20, 4), (0x00, 0)],
  [(0x88, 2), (0x88, 2), (0x10, 2), (0x88, 2)],
  [(0x88, 2), (0x88, 2), (0x88, 2), (0x10, 2)],
  [(0x88, 2), (0x88, 2), (0x88, 2), (0x88, 2)],
  [(0x88, 2), (0x88, 2), (0x89, 4), (0x00, 0)],
  [(0x89, 4), (0x20, 4), (0x00, 0), (0x00, 0)],
  [(0x89, 4), (0x10, 2), (0x88, 2), (0x00, 0)],
  [(0x89, 4), (0x88, 2), (0x10, 2), (0x00, 0)],
  [(0x89, 4), (0x88, 2), (0x88, 2), (0x00, 0)],
  [(0x89, 4), (0x89, 4), (0x00, 0), (0x00, 0)],
  [(0x88, 8), (0x00, 0), (0x00, 0), (0x00, 0)]]

/-- `fifo_sizes`, 842_decompress.cu 23-24 -/
def cudaFifoSizes : List Nat := [0, 0, 512, 0, 2048, 0, 0, 0, 2048]

/-- `get_parameter_length`, `/repo/src/hls/842_decomp.cpp` 99-166 -/
def hlsParamLength (op : Nat) : Nat :=
  match op with
  | 0x00 => 64 + 0 + 0 + 0
  | 0x01 => 32 + 16 + 8 + 0
  | 0x02 => 32 + 8 + 16 + 0
  | 0x03 => 32 + 8 + 8 + 0
  | 0x04 => 32 + 9 + 0 + 0
  | 0x05 => 16 + 8 + 32 + 0
  | 0x06 => 16 + 8 + 16 + 8
  | 0x07 => 16 + 8 + 8 + 16
  | 0x08 => 16 + 8 + 8 + 8
  | 0x09 => 16 + 8 + 9 + 0
  | 0x0a => 8 + 16 + 32 + 0
  | 0x0b => 8 + 32 + 8 + 0
  | 0x0c => 8 + 16 + 8 + 16
  | 0x0d => 8 + 16 + 8 + 8
  | 0x0e => 8 + 16 + 9 + 0
  | 0x0f => 8 + 8 + 32 + 0
  | 0x10 => 8 + 8 + 16 + 8
  | 0x11 => 8 + 8 + 8 + 16
  | 0x12 => 8 + 8 + 8 + 8
  | 0x13 => 8 + 8 + 9 + 0
  | 0x14 => 9 + 32 + 0 + 0
  | 0x15 => 9 + 16 + 8 + 0
  | 0x16 => 9 + 8 + 16 + 0
  | 0x17 => 9 + 8 + 8 + 0
  | 0x18 => 9 + 9 + 0 + 0
  | 0x19 => 8 + 0 + 0 + 0
  | 0x1B => 6
  | 0x1C => 0
  | 0x1E => 0
  | _ => 0

/-- `opbits`, `/repo/src/ocl/decompress.cl` 207-208 and
`/repo/src/serial_optimized/842_decompress.cpp` 197-198.  The value is computed in `int` and
converted to `uint8_t`. -/
def oclOpbits (op : Nat) : Nat :=
  ((64 - ((op % 5) + 1) / 2 * 8 - ((op % 5) / 4) * 7
    - ((op / 5) + 1) / 2 * 8 - ((op / 5) / 4) * 7 : Int) % 256).toNat

/-- `(uint32_t)(b)` for a comparison -/
def cbool (b : Bool) : Int := if b then 1 else 0

/-- `opchunk`, decompress.cl 225, 842_decompress.cpp 219 -/
def oclOpchunk (op i : Nat) : Nat := if i < 2 then op / 5 else op % 5

/-- `is_index`, decompress.cl 226, 842_decompress.cpp 220 -/
def oclIsIndex (op i : Nat) : Nat :=
  let opchunk := oclOpchunk op i
  (i &&& 1) * (opchunk &&& 1) + ((i &&& 1) ^^^ 1) * (if opchunk ≥ 2 then 1 else 0)

/-- `dst_size`, decompress.cl 227, 842_decompress.cpp 221 -/
def oclDstSize (op i : Nat) : Nat :=
  let opchunk := oclOpchunk op i
  ((2 + cbool (opchunk ≥ 4) * (1 - 2 * ((i % 2 : Nat) : Int)) * 2 : Int) % 2 ^ 32).toNat

/-- `num_bits`, decompress.cl 228-229, 842_decompress.cpp 222-223 -/
def oclNumBits (op i : Nat) : Nat :=
  let opchunk := oclOpchunk op i
  (((i &&& 1 : Nat) * (16 - ((opchunk % 2 : Nat) : Int) * 8 - cbool (opchunk ≥ 4) * 16) +
    (((i &&& 1) ^^^ 1 : Nat) : Int) *
      (16 - ((opchunk / 2 : Nat) : Int) * 8 + cbool (opchunk ≥ 4) * 9) : Int) % 256).toNat

/-- `fifo_size`, decompress.cl 240, 842_decompress.cpp 234 -/
def oclFifoSize (dstSize : Nat) : Nat := 2048 - 1536 * (if dstSize >>> 2 < 1 then 1 else 0)

end Lib842
