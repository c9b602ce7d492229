import Verif.Proofs.WorkBound
import Verif.Props.Final
/-!
# Property theorems about the work of the decompressors in terms of the room for the output (C118)
-/

namespace Lib842
open Spec Work

namespace Props

/-- C118: with room for `n` bytes the main loop of `sw842_decompress` runs at most `n + 1` times, however long the input is: any bound on the
iterations above `n` gives the same result. -/
theorem C118_sw_steps (e : Endian) (addr fuel : Nat) (inp buf : List Byte) (hf : buf.length < fuel) :
    sw842DecompressF fuel e addr inp buf ≠ .timeout ∧ sw842DecompressF fuel e addr inp buf = sw842Decompress e addr inp buf := by
  have h : sw842DecompressF fuel e addr inp buf = sw842Decompress e addr inp buf :=
    sw_loop_eq e addr inp buf (sw_loop_any e inp buf (decompLoop_room e fuel (decompInit_inv inp buf) hf) (sw_loop_ends e inp buf))
  refine ⟨?_, h⟩
  rw [h]
  exact (C09_sw_decompress_terminates e addr (8 * inp.length + 1) inp buf (by omega)).1

/-- C118: the main loop of `optsw842_decompress` runs at most `n / 8 + 1` times. -/
theorem C118_opt_steps (e : Endian) (ain aout fuel : Nat) (hal : ain % 8 = 0 ∧ aout % 8 = 0) (inp buf : List Byte) (hf : buf.length / 8 < fuel) :
    optsw842DecompressF fuel e ain aout inp buf ≠ .timeout ∧ optsw842DecompressF fuel e ain aout inp buf = optsw842Decompress e ain aout inp buf := by
  have h : optsw842DecompressF fuel e ain aout inp buf = optsw842Decompress e ain aout inp buf := by
    refine opt_loop_eq e hal inp buf (doWhile_any _ (loop_room (optIter_ok e) fuel (optInit_inv inp buf) ?_) (opt_loop_ends e inp buf))
    show buf.length < _ + 8 * fuel
    omega
  refine ⟨?_, h⟩
  rw [h]
  exact (C09_opt_decompress_terminates e ain aout (8 * inp.length + 1) inp buf (by omega)).1

/-- C118: of its input, `sw842_decompress` looks at the first `2 * n + 5` bytes at most. -/
theorem C118_sw_input (e : Endian) (addr : Nat) (inp buf : List Byte) :
    sw842Decompress e addr (inp.take (2 * buf.length + 5)) buf = sw842Decompress e addr inp buf := by
  rcases C97_sw_incremental e addr inp buf (2 * buf.length + 5) with ⟨n, b, h⟩ | h
  · have h1 := sw_eof16 e addr _ buf b n h
    rw [List.length_take] at h1
    rw [List.take_of_length_le (by omega)]
  · exact h

/-- C118: both bounds are reached, for any data: there is a stream of `2 * n + 5` bytes for the `n` bytes `d` which takes more than `n`
iterations; it is decompressed (as far as the length fits into an `unsigned int`), but not without its last byte. -/
theorem C118_sw_exact (d : List Byte) : ∃ s : List Byte, s.length = 2 * d.length + 5 ∧ Decodes s d ∧
    ∀ (e : Endian) (addr : Nat) (buf : List Byte), buf.length = d.length →
      sw842DecompressF d.length e addr s buf = .timeout ∧
      (d.length ≤ 0xffffffff → sw842Decompress e addr s buf = .ret none d.length d) ∧
      ∃ b, sw842Decompress e addr (s.take (2 * d.length + 4)) buf = .ret (some .EOVERFLOW) 0 b := by
  obtain ⟨s, hl, hs⟩ := single_stream d
  have hd : Decodes s d := ⟨single d, _, ⟨single_valid d, by simpa using single_run d []⟩, hs⟩
  refine ⟨s, hl, hd, fun e addr buf hb => ⟨?_, fun hmax => ?_, ?_⟩⟩
  · exact single_steps e addr (R := trailer d ++ List.replicate 3 false) (by rw [hs, List.append_assoc]) (by omega)
  · obtain ⟨b, h1, h2, h3⟩ := sw842Decompress_decodes e addr s buf hd
    rw [if_neg (by omega), if_neg (by omega)] at h3
    have h4 := h2 (by omega)
    rw [List.take_of_length_le (by omega)] at h4
    rw [h3, h4]
  · refine single_cut e addr (d := d) (R := (bitsOf 32 (crc d).toNat).take 27) ?_ (by simp) (by omega)
    rw [bytesBits_take, hs, trailer, List.append_assoc, List.take_append, single_bits,
      List.take_of_length_le (by rw [single_bits]; omega), List.append_assoc,
      show 8 * (2 * d.length + 4) - 16 * d.length = 32 by omega, List.take_append, length_bitsOf,
      List.take_of_length_le (by simp), List.take_append, length_bitsOf]
    simp

/-- C118: `n / 8 + 1` iterations are needed by `optsw842_decompress` for a stream of zeros. -/
theorem C118_opt_exact (n : Nat) : ∃ s : List Byte, HwDecodes s (List.replicate (8 * n) 0#8) ∧
    ∀ (e : Endian) (ain aout : Nat) (buf : List Byte), ain % 8 = 0 ∧ aout % 8 = 0 → buf.length / 8 = n →
      optsw842DecompressF n e ain aout s buf = .timeout := by
  obtain ⟨s, -, h8, R, hs⟩ := zeros_stream n
  refine ⟨s, ⟨List.replicate n Op.zeros, R, ⟨fun o h => (zeros_valid n o h).1, by simpa using Work.zeros_run n []⟩,
    fun o h => (zeros_valid n o h).2, hs⟩, fun e ain aout buf hal hb => ?_⟩
  exact zeros_steps e hal h8 (R := trailer (List.replicate (8 * n) 0#8) ++ R) (by rw [hs, List.append_assoc]) (by omega)

/-- A long input that does not matter: with room for two bytes, the call sees the first nine bytes of 1000. -/
example (e : Endian) (addr : Nat) (a b : Byte) (inp : List Byte) (h : inp.length = 1000) :
    (inp.take (2 * [a, b].length + 5)).length = 9 ∧ sw842Decompress e addr (inp.take 9) [a, b] = sw842Decompress e addr inp [a, b] :=
  ⟨by simp [h], C118_sw_input e addr inp [a, b]⟩

end Props
end Lib842
