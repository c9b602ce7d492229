import Verif.Proofs.WordCuda
import Verif.Props.Ocl
import Verif.Props.Cuda
/-!
# C108 for the OpenCL and the CUDA decompressor

`Model/WordOcl` and `Model/WordCuda` compute with the integer types of the kernels (`uint`, `uchar`, `ushort`, `ulong`), `Model/Ocl` and
`Model/Cuda` with natural numbers.  The lengths the host passes to the OpenCL kernel are arbitrary 64-bit words: they need not be lengths of objects.
-/

namespace Lib842.Props
open Spec

/-- C108 for `decompress_core` of the OpenCL kernel, in place (`src = none`) or not -/
theorem C108_ocl_core_words (e : Endian) (src : Option (List Byte)) (ioff : Nat) (ilen : BitVec 64) (buf : List Byte) (olen : BitVec 64)
    (hs : (src.getD buf).length < 2 ^ 63) (hb : buf.length < 2 ^ 63) :
    oclCoreW e src ioff ilen buf olen = oclCore e src ioff ilen.toNat buf olen.toNat :=
  oclCoreW_eq e src ioff ilen buf olen hs hb

/-- C108 for the kernel, in all chunk formats, with and without arrays of lengths -/
theorem C108_ocl_item_words (e : Endian) (fmt : ClFormat) (chunkSize : BitVec 64) (inp buf : List Byte) (ilen olen : Option (BitVec 64))
    (hi : inp.length < 2 ^ 63) (hb : buf.length < 2 ^ 63) :
    oclItemW e fmt chunkSize inp buf ilen olen = oclItem e fmt chunkSize.toNat inp buf (ilen.map BitVec.toNat) (olen.map BitVec.toNat) :=
  oclItemW_eq e fmt chunkSize inp buf ilen olen hi hb

/-- C43 for the kernel with machine arithmetic -/
theorem C108_ocl_accepts_format (e : Endian) (inp buf d : List Byte) (ilen olen : BitVec 64) (hi : inp.length < 2 ^ 63) (hb : buf.length < 2 ^ 63)
    (h8 : ilen.toNat % 8 = 0) (hin : ilen.toNat ≤ inp.length) (hdec : HwDecodes (inp.take ilen.toNat) d) (hd : d.length ≤ olen.toNat)
    (hbuf : d.length ≤ buf.length) : oclCoreW e (some inp) 0 ilen buf olen = .ret none d.length (d ++ buf.drop d.length) := by
  rw [C108_ocl_core_words e (some inp) 0 ilen buf olen hi hb]
  exact C43_ocl_accepts_format e inp buf d ilen.toNat olen.toNat h8 hin hdec hd hbuf

/-- C108 for a thread of the CUDA kernel -/
theorem C108_cuda_thread_words (inp buf : List Byte) (hb : buf.length < 2 ^ 63) : cudaThreadW inp buf = cudaThread inp buf :=
  cudaThreadW_eq inp buf hb

/-- C108 for a thread of a launch, apart from the products with `chunk_num`, which do wrap (C47): `cudaChunk` takes them modulo 2^32 -/
theorem C108_cuda_chunk_words (inp buf : List Byte) (block blockDim thread : BitVec 32) (hb : buf.length < 2 ^ 63) :
    cudaChunkW inp buf block blockDim thread = cudaChunk inp buf (block.toNat * blockDim.toNat + thread.toNat) :=
  cudaChunkW_eq inp buf block blockDim thread hb

/-- C47 for a thread with machine arithmetic -/
theorem C108_cuda_thread_decodes (inp buf d : List Byte) (n : Nat) (hb : buf.length < 2 ^ 63) (h8 : n % 8 = 0) (hin : n ≤ inp.length)
    (hdec : HwDecodes (inp.take n) d) (hbuf : d.length ≤ buf.length) : cudaThreadW inp buf = some (d ++ buf.drop d.length) := by
  rw [C108_cuda_thread_words inp buf hb]
  exact C47_cuda_thread inp buf d n h8 hin hdec hbuf

/-! ## The hypotheses hold in concrete cases; the words matter -/

example : oclCoreW .little (some exOut8) 0 24#64 (List.replicate 33 0xaa) 33#64 = .ret none 32 (exIn8 ++ [0xaa]) ∧
    exOut8.length < 2 ^ 63 ∧ HwDecodes (exOut8.take (24#64).toNat) exIn8 := by
  refine ⟨by decide +kernel, by decide, ?_⟩
  have h : optsw842Decompress .little 0 0 exOut8 (List.replicate 33 0xaa) = .ret none 32 (exIn8 ++ [0xaa]) := ex_opt_decompress
  exact (C14_opt_success_is_decoding .little 0 0 exOut8 _ 32 _ (by decide) h).1

/-- Without arrays of lengths the kernel uses 2^64 - 1 for both: the look-ahead buffer then reads 48 bytes past the stream -/
example : oclItemW .little .always 40#64 (exOut8 ++ List.replicate 48 0) (List.replicate 33 0xaa) none none = .ret none 32 (exIn8 ++ [0xaa]) ∧
    oclItemW .little .always 40#64 (exOut8 ++ List.replicate 16 0) (List.replicate 33 0xaa) none none = .ub ∧
    oclItemW .little .always 40#64 exOut8 (List.replicate 33 0xaa) (some 24#64) none = .ret none 32 (exIn8 ++ [0xaa]) := by
  decide +kernel

example : cudaThreadW (exOut8 ++ [0xff, 0xff]) (List.replicate 33 0xaa) = some (exIn8 ++ [0xaa]) := by
  decide +kernel

/-- Thread 1 of block 1 in blocks of two is the fourth: it needs 6144 bytes of input -/
example : cudaChunkW (List.replicate 6143 0) (List.replicate 4096 0) 1#32 2#32 1#32 = none ∧
    ((cudaChunkW (List.replicate 6144 0 ++ exOut8) (List.replicate 4096 0xaa) 1#32 2#32 1#32).map fun b => (b.drop 3072).take 33) =
      some (exIn8 ++ [0xaa]) := by
  decide +kernel

end Lib842.Props
