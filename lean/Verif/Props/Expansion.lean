import Verif.Proofs.Expansion
import Verif.Props.Sw
import Verif.Props.Opt
import Verif.Props.Ocl
/-!
# C72: how much decompression can expand

A repeat op (11 bits) stands for at most 512 bytes, so that `n` bytes decode to less than `4096 n / 11` bytes.
-/

namespace Lib842.Props
open Spec

/-- C72, the format -/
theorem C72_bound (s x : List Byte) (h : Decodes s x) : x = [] ∨ 11 * x.length + 21416 ≤ 4096 * s.length :=
  decodes_expand h

/-- C72, reached: for every `m` a stream of `8 + 88 m` bytes decodes to as much as the bound allows. -/
theorem C72_reached (m : Nat) : ∃ s x : List Byte, s.length = 8 * (1 + 11 * m) ∧ HwDecodes s x ∧
    11 * x.length + 21416 = 4096 * s.length := by
  obtain ⟨s, h1, h2⟩ := bomb m
  exact ⟨s, _, h1, h2, by rw [h1, List.length_replicate]; omega⟩

/-- C72 for `sw842_decompress` -/
theorem C72_sw (e : Endian) (addr : Nat) (inp buf : List Byte) (n : Nat) (b : List Byte)
    (h : sw842Decompress e addr inp buf = .ret none n b) : n = 0 ∨ 11 * n + 21416 ≤ 4096 * inp.length := by
  obtain ⟨h1, h2⟩ := C13_sw_success_is_decoding e addr inp buf n b h
  rcases C72_bound _ _ h1 with h3 | h3
  · rw [h3] at h2; exact .inl h2.symm
  · rw [h2] at h3; exact .inr h3

/-- C72 for `optsw842_decompress`, any alignment -/
theorem C72_opt (e : Endian) (ain aout : Nat) (inp buf : List Byte) (n : Nat) (b : List Byte)
    (h : optsw842Decompress e ain aout inp buf = .ret none n b) : n = 0 ∨ 11 * n + 21416 ≤ 4096 * inp.length := by
  by_cases hal : ain % 8 ≠ 0 ∨ aout % 8 ≠ 0
  · rw [optDecompress_sw _ _ hal] at h
    exact C72_sw e aout inp buf n b h
  · obtain ⟨h1, h2⟩ := C14_opt_success_is_decoding e ain aout inp buf n b (by omega) h
    have h1 := h1.of_words.decodes
    rcases C72_bound _ _ h1 with h3 | h3
    · rw [h3] at h2; exact .inl h2.symm
    · rw [h2] at h3; exact .inr h3

/-- C72 for the OpenCL decoder -/
theorem C72_ocl (e : Endian) (inp buf : List Byte) (ilen olen n : Nat) (b : List Byte) (h8 : ilen % 8 = 0)
    (hin : ilen ≤ inp.length) (hout : olen ≤ buf.length)
    (h : oclCore e (some inp) 0 ilen buf olen = .ret none n b) : n = 0 ∨ 11 * n + 21416 ≤ 4096 * ilen := by
  obtain ⟨-, h2, -, -, ops, crc, rest, h3, -, h4⟩ := C43_ocl_success_is_decoding e inp buf ilen olen n b h8 hin hout h
  have hl := congrArg List.length h4
  simp only [length_bytesBits, List.length_append, length_bitsOf, List.length_take] at hl
  rcases expands_expand h3 with h5 | h5
  · rw [h5] at h2; exact .inl h2.symm
  · right; omega

/-- C72: a caller who does not know the size can do with a buffer of `4096 n / 11` bytes: `sw842_decompress` then accepts
exactly the streams of the format (of at most `UINT_MAX` bytes of data). -/
theorem C72_sw_capacity (e : Endian) (addr : Nat) (inp buf : List Byte) (hb : 4096 * inp.length / 11 ≤ buf.length) (d : List Byte)
    (hd : d.length ≤ 0xffffffff) :
    (∃ b, sw842Decompress e addr inp buf = .ret none d.length b ∧ b.take d.length = d) ↔ Decodes inp d := by
  rw [C13_sw_accepts_exactly_format]
  constructor
  · exact fun h => h.1
  · intro h
    refine ⟨h, ?_, hd⟩
    rcases C72_bound _ _ h with rfl | h3
    · simp
    · omega

/-- C72, same for `optsw842_decompress`. -/
theorem C72_opt_capacity (e : Endian) (ain aout : Nat) (inp buf : List Byte) (hal : ain % 8 = 0 ∧ aout % 8 = 0)
    (hb : 4096 * inp.length / 11 ≤ buf.length) (d : List Byte) :
    (∃ b, optsw842Decompress e ain aout inp buf = .ret none d.length b ∧ b.take d.length = d) ↔
      HwDecodes (inp.take (8 * (inp.length / 8))) d := by
  rw [C14_opt_accepts_exactly_format _ _ _ _ _ _ hal]
  constructor
  · exact fun h => h.1
  · intro h
    refine ⟨h, ?_⟩
    rcases C72_bound _ _ h.of_words.decodes with rfl | h3
    · simp
    · omega

/-- C72: both decoders really produce that much, from streams of any size. -/
theorem C72_decoders_reach (e : Endian) (addr ain aout : Nat) (hal : ain % 8 = 0 ∧ aout % 8 = 0) (m : Nat) :
    ∃ s : List Byte, s.length = 8 * (1 + 11 * m) ∧ ∃ n, 11 * n + 21416 = 4096 * s.length ∧ ∀ buf : List Byte, n ≤ buf.length →
      (∃ b, optsw842Decompress e ain aout s buf = .ret none n b) ∧
      (n ≤ 0xffffffff → ∃ b, sw842Decompress e addr s buf = .ret none n b) := by
  obtain ⟨s, x, h1, h2, h3⟩ := C72_reached m
  refine ⟨s, h1, x.length, h3, fun buf hb => ⟨?_, fun hu => ?_⟩⟩
  · obtain ⟨b, h, -⟩ := (C14_opt_accepts_exactly_format e ain aout s buf x hal).2
      ⟨by rw [List.take_of_length_le (by omega)]; exact h2, hb⟩
    exact ⟨b, h⟩
  · obtain ⟨b, h, -⟩ := (C13_sw_accepts_exactly_format e addr s buf x).2 ⟨h2.decodes, hb, hu⟩
    exact ⟨b, h⟩

/-- The hypotheses are met: 8 bytes (zeros, a repeat of 4 groups, end, CRC 0) that decode to 40 bytes. -/
example : view (sw842Decompress .little 0 [0xe6, 0xc3, 0xf0, 0x0, 0x0, 0x0, 0x0, 0x0] (List.replicate 44 0xaa)) =
    some (none, 40, List.replicate 40 0) ∧ 11 * 40 + 21416 ≤ 4096 * 8 := by
  decide +kernel

example : view (optsw842Decompress .big 0 8 [0xe6, 0xc3, 0xf0, 0x0, 0x0, 0x0, 0x0, 0x0] (List.replicate 44 0xaa)) =
    some (none, 40, List.replicate 40 0) := by
  decide +kernel

end Lib842.Props
