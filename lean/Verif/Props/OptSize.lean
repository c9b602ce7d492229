import Verif.Proofs.OptDict
import Verif.Props.Size
import Verif.Props.Opt
/-!
# Property theorems about the sizes of the streams of the two compressors (C64, C120)
-/

namespace Lib842.Props
open Spec

theorem _root_.Lib842.bits_le (ain aout : Nat) {x : List Byte} (h8 : x.length % 8 = 0) : (streamBits x).length ≤ (optBits ain aout x).length := by
  unfold optBits
  split
  · exact Nat.le_refl _
  · exact streamBits_le h8

/-- C64: whatever `optsw842_compress` can compress, `sw842_compress` compresses to no more bytes (unless it exceeds the 32-bit count of
`sw842_compress`), so replacing the optimised by the serial version never needs a larger buffer. -/
theorem C64_fallback_fits {e : Endian} {ain aout : Nat} {j : OptJunk} {jsw : CompJunk} {x buf : List Byte} {n : Nat} {b : List Byte}
    (h : optsw842Compress e ain aout j jsw x buf = .ret none n b) (hn : n ≤ 0xffffffff) (e' : Endian) (addr : Nat) (j' : CompJunk)
    (buf' : List Byte) (hb : n ≤ buf'.length) : ∃ n' b', sw842Compress e' addr j' x buf' = .ret none n' b' ∧ n' ≤ n := by
  obtain ⟨h8, -, h1, -⟩ := optsw842Compress_ok h
  have hle := bits_le ain aout h8
  have hp : paddedSize (streamBits x).length ≤ n := by rw [h1]; unfold paddedSize; omega
  obtain ⟨b', -, h'⟩ := sw842Compress_eq e' addr j' x buf'
  rw [if_pos ⟨by omega, by omega⟩] at h'
  exact ⟨_, b', h'.1, hp⟩

/-- C120: the size that follows from the data (C120) is a lower bound for the streams of `optsw842_compress`. -/
theorem C120_opt_lower {e : Endian} {ain aout : Nat} {j : OptJunk} {jsw : CompJunk} {x buf : List Byte} {n : Nat} {b : List Byte}
    (h : optsw842Compress e ain aout j jsw x buf = .ret none n b) : 8 * ((sizeBits x + 63) / 64) ≤ n := by
  obtain ⟨h8, -, h1, -⟩ := optsw842Compress_ok h
  have hle := bits_le ain aout h8
  rw [Size.streamBits_length] at hle
  rw [h1]; unfold paddedSize; omega

/-- A group, a second one that takes its place in the hash table, and the first one again -/
def exCollide : List Byte := [1, 2, 3, 4, 5, 6, 7, 8] ++ [10, 127, 33, 44, 55, 66, 77, 88] ++ [1, 2, 3, 4, 5, 6, 7, 8]

/-- C64: without zero groups, too, `optsw842_compress` can be worse: two groups with the same hash value, 32 bytes instead of 24. So there are
calls as in the hypothesis of the other theorems. -/
theorem C64_collision : ∃ b b', optsw842Compress .little 0 0 ojunk0 junk0 exCollide (List.replicate 48 0) = .ret none 32 b ∧
    sw842Compress .little 0 junk0 exCollide (List.replicate 48 0) = .ret none 24 b' := by
  have h1 : (view (optsw842Compress .little 0 0 ojunk0 junk0 exCollide (List.replicate 48 0))).map (fun r => (r.1, r.2.1)) = some (none, 32) := by
    decide +kernel
  obtain ⟨b', -, h2⟩ := C120_sw_size .little 0 junk0 exCollide (List.replicate 48 0)
  rw [show 8 * ((sizeBits exCollide + 63) / 64) = 24 by decide +kernel, if_pos ⟨by decide, by decide⟩] at h2
  rcases hr : optsw842Compress .little 0 0 ojunk0 junk0 exCollide (List.replicate 48 0) with ⟨rc, n, b⟩ | _ | _
  · rw [hr] at h1
    simp only [view, Option.map_some, Option.some.injEq, Prod.mk.injEq] at h1
    obtain ⟨rfl, rfl⟩ := h1
    exact ⟨b, b', rfl, h2⟩
  · rw [hr] at h1; cases h1
  · rw [hr] at h1; cases h1

end Lib842.Props
