import Verif.Proofs.NonStrict
import Verif.Props.NewWords
/-!
# Property theorems for the code without `LIB842_CUDA_STRICT` (C88)
-/

namespace Lib842.Props
open Spec

/-! ## C88: building without `LIB842_CUDA_STRICT` -/

/-- C88, the compressor: every success is a valid hardware stream for the input, so every decompressor of the
library (C03, C14, C47) restores the input from it. -/
theorem C88_nonstrict_stream_valid (e : Endian) (ain aout : Nat) (j : OptJunk) (jsw : CompJunk) (x buf : List Byte)
    (n : Nat) (b : List Byte) (h : nonstrictCompress e ain aout j jsw x buf = .ret none n b) :
    HwDecodes (b.take n) x ∧ n % 8 = 0 ∧ n ≤ b.length ∧ b.length = buf.length := by
  obtain ⟨-, h1, h2, h3, h4⟩ := nonstrictCompress_ok h
  exact ⟨h4, h1, h2, h3⟩

/-- C88, the compressor: the serial decompressor, the optimized one and the CUDA kernel built with `LIB842_CUDA_STRICT`
restore the input from every success. -/
theorem C88_nonstrict_stream_restored (e e' : Endian) (ain aout addr ain' aout' : Nat) (j : OptJunk) (jsw : CompJunk)
    (x buf : List Byte) (n : Nat) (b out : List Byte) (h : nonstrictCompress e ain aout j jsw x buf = .ret none n b)
    (hout : x.length ≤ out.length) (hx : x.length ≤ 0xffffffff) :
    (∃ o, sw842Decompress e' addr (b.take n) out = .ret none x.length o ∧ o.take x.length = x) ∧
    (∃ o, optsw842Decompress e' ain' aout' (b.take n) out = .ret none x.length o ∧ o.take x.length = x) ∧
    cudaThread b out = some (x ++ out.drop x.length) := by
  obtain ⟨-, h1, h2, -, h4⟩ := nonstrictCompress_ok h
  refine ⟨?_, ?_, cudaThread_prefix h1 h2 h4 hout⟩
  · obtain ⟨o, -, ho, hr⟩ := sw842Decompress_decodes e' addr (b.take n) out h4.decodes
    rw [if_neg (by omega), if_neg (by omega)] at hr
    exact ⟨o, hr, ho hout⟩
  · obtain ⟨o, ho, hr, -⟩ := optDecompress_hw e' (ain := ain') (aout := aout') (b.take n) out
      (by rw [List.length_take]; omega) h4 hout (by unfold OptLim; omega)
    exact ⟨o, ho, hr⟩

/-- C88, the compressor: with aligned buffers and 69 bits per group plus the trailer it succeeds, and nothing after the
stream is touched. -/
theorem C88_nonstrict_succeeds (e : Endian) (ain aout : Nat) (j : OptJunk) (jsw : CompJunk) (x buf : List Byte)
    (hal : ain % 8 = 0 ∧ aout % 8 = 0) (h8 : x.length % 8 = 0) (hne : x ≠ [])
    (hb : 8 * ((69 * (x.length / 8) + 37 + 63) / 64) ≤ buf.length) :
    ∃ n b, nonstrictCompress e ain aout j jsw x buf = .ret none n b ∧ n ≤ 8 * ((69 * (x.length / 8) + 37 + 63) / 64) ∧
      b.drop n = buf.drop n := by
  obtain ⟨b, -, hr⟩ := nonstrictCompress_eq e j jsw buf hal h8 hne
  have hl := nstreamBits_length x
  have hp : paddedSize (nstreamBits x).length ≤ 8 * ((69 * (x.length / 8) + 37 + 63) / 64) := by
    unfold paddedSize; omega
  rw [if_pos (by omega)] at hr
  exact ⟨_, b, hr.1, hp, hr.2.2⟩

/-- C88, the compressor: at most 1112 bytes for a chunk of 1024 bytes (the slots of the samples have 2048). -/
theorem C88_nonstrict_chunk_size (e : Endian) (ain aout : Nat) (j : OptJunk) (jsw : CompJunk) (x buf : List Byte)
    (hal : ain % 8 = 0 ∧ aout % 8 = 0) (h8 : x.length % 8 = 0) (hne : x ≠ []) (hx : x.length ≤ 1024) (hb : 1112 ≤ buf.length) :
    ∃ n b, nonstrictCompress e ain aout j jsw x buf = .ret none n b ∧ n ≤ 1112 := by
  obtain ⟨n, b, h1, h2, -⟩ := C88_nonstrict_succeeds e ain aout j jsw x buf hal h8 hne (by omega)
  exact ⟨n, b, h1, by omega⟩

/-- C88, the kernel: every stream of the format without ring buffers at the beginning of the input object is decoded
to the data it denotes, without undefined behaviour; nothing after the decoded data is touched. -/
theorem C88_nonstrict_kernel (inp buf d : List Byte) (n : Nat) (h8 : n % 8 = 0) (hin : n ≤ inp.length)
    (hdec : DirectDecodes (inp.take n) d) (hb : d.length ≤ buf.length) :
    nsThread inp buf = some (d ++ buf.drop d.length) :=
  nsThread_prefix h8 hin hdec hb

/-- C88, compressor and kernel: chunks whose 16-bit words are all new are restored.  Missing: all other chunks, see the
counterexamples below. -/
theorem C88_nonstrict_round_trip_partial (e : Endian) (ain aout : Nat) (j : OptJunk) (jsw : CompJunk) (x slot : List Byte)
    (n : Nat) (b out : List Byte) (h : nonstrictCompress e ain aout j jsw x slot = .ret none n b) (hx : AllNew x)
    (hb : x.length ≤ out.length) : nsThread b out = some (x ++ out.drop x.length) := by
  obtain ⟨-, h1, h2, -, h4⟩ := nonstrictCompress_ok h
  exact nsThread_prefix h1 h2 (hw_direct hx h4) hb

/-- The hypotheses are met by a full chunk. -/
example (out : List Byte) (ho : 1024 ≤ out.length) : ∃ n b,
    nonstrictCompress .little 0 0 ojunk0 junk0 (counting 128) (List.replicate 2048 0) = .ret none n b ∧
    nsThread b out = some (counting 128 ++ out.drop 1024) := by
  have hl : (counting 128).length = 1024 := by rw [length_counting]
  obtain ⟨n, b, h, -⟩ := C88_nonstrict_chunk_size .little 0 0 ojunk0 junk0 (counting 128) (List.replicate 2048 0)
    ⟨rfl, rfl⟩ (by omega) (by intro h; rw [h] at hl; cases hl) (by omega) (by rw [List.length_replicate]; omega)
  refine ⟨n, b, h, ?_⟩
  have := C88_nonstrict_round_trip_partial .little 0 0 ojunk0 junk0 (counting 128) _ n b out h
    (counting_new 128) (by omega)
  rwa [hl] at this

/-- A stream with references of the format without ring buffers. -/
def exDirect : List Byte := [0x00, 0x08, 0x10, 0x18, 0x20, 0x28, 0x30, 0x38, 0x46, 0x40, 0x78, 0, 0, 0, 0, 0]

example : nsThread exDirect (List.replicate 17 0xaa) = some ([1, 2, 3, 4, 5, 6, 7, 8, 1, 2, 3, 4, 5, 6, 7, 8] ++ [0xaa]) := by
  refine C88_nonstrict_kernel exDirect (List.replicate 17 0xaa) [1, 2, 3, 4, 5, 6, 7, 8, 1, 2, 3, 4, 5, 6, 7, 8] 16 rfl
    (by decide) ⟨[⟨0, [.data [1, 2, 3, 4, 5, 6, 7, 8]]⟩, ⟨0x19, [.index 8 0]⟩], List.replicate 42 false, ?_, ?_, by decide +kernel⟩
    (by decide)
  · intro op hop
    rcases List.mem_cons.1 hop with rfl | hop
    · exact ⟨rfl, by simp⟩
    · rw [List.mem_singleton] at hop
      subst hop
      refine ⟨rfl, fun s i h => ?_⟩
      rw [List.mem_singleton] at h
      cases h
      decide
  · exact .cons (.cons .data .nil) (.cons (.cons (.index (by decide)) .nil) .nil)

def exTwice : List Byte := [1, 2, 3, 4, 5, 6, 7, 8, 1, 2, 3, 4, 5, 6, 7, 8]
def exTwiceStream : List Byte := [0x00, 0x08, 0x10, 0x18, 0x20, 0x28, 0x30, 0x38, 0x46, 0x40, 0x3d, 0x1e, 0x34, 0xf7, 0x56, 0x00]

/-- C88 is false for all other chunks: the second group is a reference, which the compressor writes with 8 bits of which
the kernel reads 7.  It misses the end marker and reads beyond the end of the stream.  The kernel built with
`LIB842_CUDA_STRICT` restores the same stream. -/
theorem C88_nonstrict_mismatch_false :
    nonstrictCompress .little 0 0 ojunk0 junk0 exTwice (List.replicate 16 0) = .ret none 16 exTwiceStream ∧
    nsThread exTwiceStream (List.replicate 64 0) = none ∧
    cudaThread exTwiceStream (List.replicate 16 0) = some exTwice := by
  and_intros <;> decide +kernel

def exSilent : List Byte := [8, 2, 1, 2, 3, 4, 5, 6, 8, 2, 1, 2, 3, 4, 5, 6, 2, 8, 1, 2, 3, 4, 5, 6]
def exSilentStream : List Byte := [0x00, 0x40, 0x10, 0x08, 0x10, 0x18, 0x20, 0x28, 0x36, 0x40, 0x12, 0x04, 0x10, 0x0a, 0x03, 0xf7,
  0xd5, 0x71, 0xf5, 0xa8, 0, 0, 0, 0]

/-- With other bytes after the stream in the slot the kernel ends without any error, with wrong contents. -/
theorem C88_nonstrict_silent_false :
    nonstrictCompress .little 0 0 ojunk0 junk0 exSilent (List.replicate 64 0xf0) =
      .ret none 24 (exSilentStream ++ List.replicate 40 0xf0) ∧
    (nsThread (exSilentStream ++ List.replicate 40 0xf0) (List.replicate 1024 0)).map (List.take 24) =
      some [8, 2, 1, 2, 3, 4, 5, 6, 8, 2, 1, 2, 3, 4, 5, 6, 129, 4, 2, 128, 0, 0, 0, 0] := by
  and_intros <;> decide +kernel

/-- Streams of the strict compressor: ops other than templates select a row outside the table. -/
theorem C88_strict_stream_false :
    optsw842Compress .little 0 0 ojunk0 junk0 (List.replicate 8 0) (List.replicate 8 0) =
      .ret none 8 [0xe7, 0x80, 0, 0, 0, 0, 0, 0] ∧
    nsThread [0xe7, 0x80, 0, 0, 0, 0, 0, 0] (List.replicate 1024 0) = none ∧
    cudaThread [0xe7, 0x80, 0, 0, 0, 0, 0, 0] (List.replicate 8 0) = some (List.replicate 8 0) := by
  and_intros <;> decide +kernel

end Lib842.Props
