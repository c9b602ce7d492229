import Verif.Proofs.WordOptComp
import Verif.Props.Opt
/-!
# C108: fixed-width arithmetic never wraps

`sw842CompressW`, `sw842DecompressW`, `optsw842CompressW` and `optsw842DecompressW` compute lengths, bit positions, counters and offsets in the unsigned
and signed types of the code (`uint8_t`, `int`, `uint64_t`, `size_t`), where results are reduced modulo a power of two.  `sw842Compress`,
`sw842Decompress`, `optsw842Compress` and `optsw842Decompress` compute them with natural numbers.  Objects of C have fewer than 2^63 bytes (their size fits into `ptrdiff_t`).
-/

namespace Lib842.Props
open Spec

/-- C108 for `sw842_decompress`: on every input, damaged ones included, machine arithmetic gives the same results, writes the same bytes and goes out of
bounds in the same cases as exact arithmetic. -/
theorem C108_sw_decompress_words (e : Endian) (addr : Nat) (inp buf : List Byte) (hi : inp.length < 2 ^ 63) (hb : buf.length < 2 ^ 63) :
    sw842DecompressW e addr inp buf = sw842Decompress e addr inp buf :=
  sw842DecompressW_eq e addr inp buf ⟨hi, hb⟩

/-- C108 for `optsw842_decompress` -/
theorem C108_opt_decompress_words (e : Endian) (ain aout : Nat) (inp buf : List Byte) (hi : inp.length < 2 ^ 63) (hb : buf.length < 2 ^ 63) :
    optsw842DecompressW e ain aout inp buf = optsw842Decompress e ain aout inp buf :=
  optsw842DecompressW_eq e ain aout inp buf ⟨hi, hb⟩

/-- C108 for `sw842_compress` -/
theorem C108_sw_compress_words (e : Endian) (addr : Nat) (j : CompJunk) (x buf : List Byte) (hx : x.length < 2 ^ 63) (hb : buf.length < 2 ^ 63) :
    sw842CompressW e addr j x buf = sw842Compress e addr j x buf :=
  sw842CompressW_eq e addr j x buf ⟨hx, hb⟩

/-- C108 for `optsw842_compress` -/
theorem C108_opt_compress_words (e : Endian) (ain aout : Nat) (j : OptJunk) (jsw : CompJunk) (x buf : List Byte) (hx : x.length < 2 ^ 63)
    (hb : buf.length < 2 ^ 63) : optsw842CompressW e ain aout j jsw x buf = optsw842Compress e ain aout j jsw x buf :=
  optsw842CompressW_eq e ain aout j jsw x buf ⟨hx, hb⟩

/-- C02 for the code with machine arithmetic -/
theorem C108_opt_round_trip (e e' : Endian) (ain aout ain' aout' : Nat) (j : OptJunk) (jsw : CompJunk) (x buf buf' : List Byte) (n : Nat) (b : List Byte)
    (hx : x.length < 2 ^ 63) (hb : buf.length < 2 ^ 63) (hb' : buf'.length < 2 ^ 63) (hc : optsw842CompressW e ain aout j jsw x buf = .ret none n b)
    (hcap : x.length ≤ buf'.length) (hlim : (ain' % 8 = 0 ∧ aout' % 8 = 0) ∨ x.length ≤ 0xffffffff) :
    ∃ b', optsw842DecompressW e' ain' aout' (b.take n) buf' = .ret none x.length b' ∧ b'.take x.length = x ∧ b'.length = buf'.length := by
  rw [C108_opt_compress_words e ain aout j jsw x buf hx hb] at hc
  have hl := (C07_opt_length_contract e e ain aout ain aout j j jsw jsw x buf buf n n b b Iff.rfl hc hc).2.2.1
  obtain ⟨b', h1, h2, h3⟩ := C02_opt_round_trip_partial e e' ain aout ain' aout' j jsw x buf buf' n b hc hcap hlim
  refine ⟨b', ?_, h2, h3⟩
  rw [C108_opt_decompress_words e' ain' aout' (b.take n) buf' (by rw [List.length_take]; omega) hb']
  exact h1

/-- C01 for the code with machine arithmetic -/
theorem C108_round_trip (e e' : Endian) (addr addr' : Nat) (j : CompJunk) (x buf buf' : List Byte) (n : Nat) (b : List Byte) (hx : x.length ≤ 0xffffffff)
    (hb : buf.length < 2 ^ 63) (hb' : buf'.length < 2 ^ 63) (hc : sw842CompressW e addr j x buf = .ret none n b) (hcap : x.length ≤ buf'.length) :
    ∃ b', sw842DecompressW e' addr' (b.take n) buf' = .ret none x.length b' ∧ b'.take x.length = x ∧ b'.length = buf'.length := by
  rw [C108_sw_compress_words e addr j x buf (by omega) hb] at hc
  have hl := (C07_sw_length_contract e e addr addr j j x buf buf n n b b hc hc).2.2.1
  obtain ⟨b', h1, h2, h3⟩ := C01_sw_round_trip e e' addr addr' j x buf buf' n b hx hc hcap
  refine ⟨b', ?_, h2, h3⟩
  rw [C108_sw_decompress_words e' addr' (b.take n) buf' (by rw [List.length_take]; omega) hb']
  exact h1

/-- C04 for the code with machine arithmetic -/
theorem C108_compress_in_bounds (e : Endian) (addr : Nat) (j : CompJunk) (x buf : List Byte) (hx : x.length < 2 ^ 63) (hb : buf.length < 2 ^ 63) :
    ∃ rc n b, sw842CompressW e addr j x buf = .ret rc n b ∧ b.length = buf.length := by
  rw [C108_sw_compress_words e addr j x buf hx hb]
  exact (C04_sw_compress_in_bounds e addr j x buf).2.2

/-! ## The hypotheses hold in concrete cases; the words matter -/

example : exIn.length < 2 ^ 63 ∧ exOut.length < 2 ^ 63 ∧
    sw842CompressW .little 0 junk0 exIn (List.replicate 24 0xaa) = .ret none 24 exOut ∧
    sw842DecompressW .big 0 exOut (List.replicate 20 0xaa) = .ret none 19 (exIn ++ [0xaa]) := by
  decide +kernel

example : optsw842CompressW .little 8 16 ojunk0 junk0 [1, 2, 3, 4, 5, 6, 7, 8, 1, 2, 3, 4, 5, 6, 7, 8] (List.replicate 32 0xaa) =
    optsw842Compress .little 8 16 ojunk0 junk0 [1, 2, 3, 4, 5, 6, 7, 8, 1, 2, 3, 4, 5, 6, 7, 8] (List.replicate 32 0xaa) ∧
    (view (optsw842CompressW .little 8 16 ojunk0 junk0 [1, 2, 3, 4, 5, 6, 7, 8, 1, 2, 3, 4, 5, 6, 7, 8] (List.replicate 32 0xaa))).map
      (fun r => (r.1, r.2.1)) = some (none, 16) := by
  decide +kernel

/-- A damaged stream: machine and exact arithmetic agree that the repeat reads before the buffer -/
example : sw842DecompressW .little 0 [0xe9, 0x41, 0xd8, 0x00] (List.replicate 40 0xaa) = .ub := by
  decide +kernel

/-- With a 32-bit `total` in `do_index` the offset would be wrong after 4 GiB -/
example : indexOffset 5 8 2048 (2 ^ 32 + 4096) ≠ indexOffset 5 8 2048 ((2 ^ 32 + 4096) % 2 ^ 32) := by
  decide +kernel

end Lib842.Props
