import Verif.Proofs.ErrCodes
import Verif.Props.Expansion
/-!
# C73: the error codes of the decompressors can be trusted

A caller that does not know the size of the data retries with a larger buffer on `-ENOSPC` and gives up on any other error.
-/

namespace Lib842.Props
open Spec

/-- C73 for `sw842_decompress`: an error other than `-ENOSPC` (only `-EINVAL` and `-EOVERFLOW` occur) means that no buffer
helps, the input is no stream of the format.  `-ENOSPC` means that the buffer is smaller than what inputs of this size can
need (C72), or that the data is longer than `UINT_MAX`. -/
theorem C73_sw (e : Endian) (addr : Nat) (inp buf : List Byte) (er : Errno) (n : Nat) (b : List Byte)
    (h : sw842Decompress e addr inp buf = .ret (some er) n b) :
    ((er = .EINVAL ∨ er = .EOVERFLOW) ∧ ¬ ∃ d, Decodes inp d) ∨
    (er = .ENOSPC ∧ (11 * buf.length < 4096 * inp.length ∨ ∃ d, Decodes inp d ∧ d.length > 0xffffffff)) := by
  obtain ⟨hc, hs⟩ := Codes.sw_err e addr inp buf b n er h
  by_cases hn : er = .ENOSPC
  · exact .inr ⟨hn, hs hn⟩
  · left
    refine ⟨by rcases hc with h | h | h <;> simp_all, ?_⟩
    rintro ⟨d, hd⟩
    obtain ⟨b', -, -, h3⟩ := sw842Decompress_decodes e addr inp buf hd
    rw [h] at h3
    split at h3
    · cases h3; exact hn rfl
    · split at h3
      · cases h3; exact hn rfl
      · cases h3

/-- C73 for `optsw842_decompress` on aligned buffers: only `-EINVAL` and `-ENOSPC` -/
theorem C73_opt (e : Endian) (ain aout : Nat) (hal : ain % 8 = 0 ∧ aout % 8 = 0) (inp buf : List Byte) (er : Errno) (n : Nat)
    (b : List Byte) (h : optsw842Decompress e ain aout inp buf = .ret (some er) n b) :
    (er = .EINVAL ∧ ¬ ∃ d, HwDecodes (inp.take (8 * (inp.length / 8))) d) ∨
    (er = .ENOSPC ∧ 11 * buf.length < 4096 * inp.length) := by
  rcases Codes.opt_err e ain aout hal inp buf b n er h with hc | hc
  · left
    refine ⟨hc, ?_⟩
    rintro ⟨d, hd⟩
    obtain ⟨b', -, -, h3⟩ := optDecompress_decodes e hal inp buf hd
    rw [h, hc] at h3
    split at h3 <;> cases h3
  · exact .inr hc

/-- C73 for the OpenCL decoder, which does not look at the CRC -/
theorem C73_ocl (e : Endian) (inp buf : List Byte) (ilen olen : Nat) (er : Errno) (n : Nat) (b : List Byte) (h8 : ilen % 8 = 0)
    (hin : ilen ≤ inp.length) (hout : olen ≤ buf.length) (h : oclCore e (some inp) 0 ilen buf olen = .ret (some er) n b) :
    (er = .EINVAL ∧ ¬ ∃ ops d crc rest, Expands ops d ∧ (∀ op ∈ ops, op.isShort = false) ∧
      bytesBits (inp.take ilen) = ops.flatMap Op.bits ++ (bitsOf 5 0x1e ++ (bitsOf 32 crc ++ rest))) ∨
    (er = .ENOSPC ∧ 11 * olen < 4096 * ilen) := by
  rcases Codes.ocl_err e inp buf b 0 ilen olen n er (by omega) hout h with ⟨h1, h2⟩ | h1
  · left
    refine ⟨h1, ?_⟩
    rintro ⟨ops, d, crc, rest, hx, hs, hb⟩
    refine h2 ⟨d, ops, bitsOf 32 crc ++ rest, hx, hs, ?_, ?_⟩
    · simp
    · rw [Nat.mul_zero, List.drop_zero, show 8 * (ilen / 8) = ilen by omega]
      exact hb
  · exact .inr h1

/-- C73, retrying: whatever the input, with a buffer of `4096 n / 11` bytes the answer of `optsw842_decompress` is final. -/
theorem C73_opt_final (e : Endian) (ain aout : Nat) (hal : ain % 8 = 0 ∧ aout % 8 = 0) (inp buf : List Byte)
    (hb : 4096 * inp.length ≤ 11 * buf.length) :
    (∃ d b, optsw842Decompress e ain aout inp buf = .ret none d.length b ∧ b.take d.length = d ∧
      HwDecodes (inp.take (8 * (inp.length / 8))) d) ∨
    (∃ b, optsw842Decompress e ain aout inp buf = .ret (some .EINVAL) 0 b ∧
      ¬ ∃ d, HwDecodes (inp.take (8 * (inp.length / 8))) d) := by
  have hr := optDecompress_res e hal inp buf
  generalize hx : optsw842Decompress e ain aout inp buf = x at hr
  cases hr with
  | @ok d b h1 _ _ h2 => exact .inl ⟨d, b, rfl, h2, h1⟩
  | @err er b _ =>
    rcases C73_opt e ain aout hal inp buf er 0 b hx with ⟨h1, h2⟩ | ⟨-, h2⟩
    · subst h1; exact .inr ⟨b, rfl, h2⟩
    · omega

/-- C73, the same for `sw842_decompress`, provided that it does not leave its buffer (C05) and that the data fits `UINT_MAX`. -/
theorem C73_sw_final (e : Endian) (addr : Nat) (inp buf : List Byte) (hb : 4096 * inp.length ≤ 11 * buf.length)
    (hu : sw842Decompress e addr inp buf ≠ .ub) (hn : 4096 * inp.length ≤ 11 * 0xffffffff) :
    (∃ d b, sw842Decompress e addr inp buf = .ret none d.length b ∧ b.take d.length = d ∧ Decodes inp d) ∨
    (∃ er n b, sw842Decompress e addr inp buf = .ret (some er) n b ∧ (er = .EINVAL ∨ er = .EOVERFLOW) ∧
      ¬ ∃ d, Decodes inp d) := by
  have hr := sw842Decompress_res e addr inp buf
  generalize hx : sw842Decompress e addr inp buf = x at hr hu
  cases x with
  | ub => exact absurd rfl hu
  | timeout => cases hr
  | ret rc n b =>
    cases rc with
    | none =>
      obtain ⟨h1, h2⟩ := C13_sw_success_is_decoding e addr inp buf n b hx
      exact .inl ⟨_, b, by rw [h2], by rw [h2], h1⟩
    | some er =>
      rcases C73_sw e addr inp buf er n b hx with ⟨h1, h2⟩ | ⟨-, h2 | ⟨d, h2, h3⟩⟩
      · exact .inr ⟨er, n, b, rfl, h1, h2⟩
      · omega
      · rcases C72_bound _ _ h2 with rfl | h4
        · simp at h3
        · omega

/-- C73: the retry loop of a caller.  It ends with the data if the input is a stream, for every first size `k > 0` and
growth by doubling: the first size that `optsw842_decompress` does not answer with `-ENOSPC` is below twice the bound
(or the first one), and the answer there is final. -/
theorem C73_opt_retry (e : Endian) (ain aout : Nat) (hal : ain % 8 = 0 ∧ aout % 8 = 0) (inp : List Byte) (k : Nat) (hk : 0 < k) :
    ∃ i, (i = 0 ∨ 11 * (k * 2 ^ i) < 2 * 4096 * inp.length) ∧
      (∀ j < i, ∃ n b, optsw842Decompress e ain aout inp (List.replicate (k * 2 ^ j) 0) = .ret (some .ENOSPC) n b) ∧
      ((∃ d b, optsw842Decompress e ain aout inp (List.replicate (k * 2 ^ i) 0) = .ret none d.length b ∧ b.take d.length = d ∧
          HwDecodes (inp.take (8 * (inp.length / 8))) d) ∨
       (∃ b, optsw842Decompress e ain aout inp (List.replicate (k * 2 ^ i) 0) = .ret (some .EINVAL) 0 b ∧
          ¬ ∃ d, HwDecodes (inp.take (8 * (inp.length / 8))) d)) := by
  -- the answer at one size
  have hans : ∀ i, (∃ n b, optsw842Decompress e ain aout inp (List.replicate (k * 2 ^ i) 0) = .ret (some .ENOSPC) n b ∧
        11 * (k * 2 ^ i) < 4096 * inp.length) ∨
      ((∃ d b, optsw842Decompress e ain aout inp (List.replicate (k * 2 ^ i) 0) = .ret none d.length b ∧ b.take d.length = d ∧
          HwDecodes (inp.take (8 * (inp.length / 8))) d) ∨
       (∃ b, optsw842Decompress e ain aout inp (List.replicate (k * 2 ^ i) 0) = .ret (some .EINVAL) 0 b ∧
          ¬ ∃ d, HwDecodes (inp.take (8 * (inp.length / 8))) d)) := by
    intro i
    have hr := optDecompress_res e hal inp (List.replicate (k * 2 ^ i) 0)
    generalize hx : optsw842Decompress e ain aout inp (List.replicate (k * 2 ^ i) 0) = x at hr
    cases hr with
    | @ok d b h1 _ _ h2 => exact .inr (.inl ⟨d, b, rfl, h2, h1⟩)
    | @err er b _ =>
      rcases C73_opt e ain aout hal inp _ er 0 b hx with ⟨h1, h2⟩ | ⟨h1, h2⟩
      · subst h1; exact .inr (.inr ⟨b, rfl, h2⟩)
      · subst h1
        rw [List.length_replicate] at h2
        exact .inl ⟨0, b, rfl, h2⟩
  -- some size gets a final answer
  have hex : ∃ i, ¬ ∃ n b, optsw842Decompress e ain aout inp (List.replicate (k * 2 ^ i) 0) = .ret (some .ENOSPC) n b ∧
        11 * (k * 2 ^ i) < 4096 * inp.length := by
    refine ⟨4096 * inp.length, ?_⟩
    rintro ⟨n, b, -, h⟩
    have h1 : 4096 * inp.length < 2 ^ (4096 * inp.length) := Nat.lt_two_pow_self
    have h2 : 2 ^ (4096 * inp.length) ≤ k * 2 ^ (4096 * inp.length) := Nat.le_mul_of_pos_left _ hk
    omega
  classical
  refine ⟨Nat.find hex, ?_, fun j hj => ?_, ?_⟩
  · rcases Nat.eq_zero_or_pos (Nat.find hex) with h | h
    · exact .inl h
    · right
      obtain ⟨n, b, -, h2⟩ := not_not.1 (Nat.find_min hex (m := Nat.find hex - 1) (by omega))
      have : k * 2 ^ Nat.find hex = 2 * (k * 2 ^ (Nat.find hex - 1)) := by
        conv_lhs => rw [show Nat.find hex = (Nat.find hex - 1) + 1 by omega, Nat.pow_succ]
        rw [Nat.mul_comm (2 ^ _) 2, Nat.mul_left_comm]
      omega
  · obtain ⟨n, b, h1, -⟩ := not_not.1 (Nat.find_min hex hj)
    exact ⟨n, b, h1⟩
  · rcases hans (Nat.find hex) with h | h
    · exact absurd h (Nat.find_spec hex)
    · exact h

/-- The codes, on one input each: a stream with too little room, a stream cut short (the two decoders differ), a bad CRC,
a bad op. -/
example : view (sw842Decompress .little 0 [0xe6, 0xc3, 0xf0, 0x0, 0x0, 0x0, 0x0, 0x0] (List.replicate 39 0xaa)) =
      some (some .ENOSPC, 0, []) ∧
    view (sw842Decompress .little 0 [0xe6, 0xc3] (List.replicate 44 0xaa)) = some (some .EOVERFLOW, 0, []) ∧
    view (sw842Decompress .little 0 [0xe6, 0xc3, 0xf0, 0x80, 0x0, 0x0, 0x0, 0x0] (List.replicate 44 0xaa)) = some (some .EINVAL, 0, []) ∧
    view (sw842Decompress .little 0 [0xf8, 0x0] (List.replicate 44 0xaa)) = some (some .EINVAL, 0, []) := by
  decide +kernel

example : view (optsw842Decompress .little 0 0 [0xe6, 0xc3, 0xf0, 0x0, 0x0, 0x0, 0x0, 0x0] (List.replicate 39 0xaa)) =
      some (some .ENOSPC, 0, []) ∧
    view (optsw842Decompress .little 0 0 [0xe6, 0xc3] (List.replicate 44 0xaa)) = some (some .EINVAL, 0, []) ∧
    view (optsw842Decompress .little 0 0 [0xe6, 0xc3, 0xf0, 0x80, 0x0, 0x0, 0x0, 0x0] (List.replicate 44 0xaa)) = some (some .EINVAL, 0, []) := by
  decide +kernel

example : view (oclCore .little (some [0xe6, 0xc3, 0xf0, 0x80, 0x0, 0x0, 0x0, 0x0]) 0 8 (List.replicate 48 0xaa) 39) =
      some (some .ENOSPC, 0, []) ∧
    view (oclCore .little (some [0xf8, 0x0, 0x0, 0x0, 0x0, 0x0, 0x0, 0x0]) 0 8 (List.replicate 48 0xaa) 48) =
      some (some .EINVAL, 0, []) := by
  decide +kernel

end Lib842.Props
