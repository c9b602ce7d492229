import Verif.Proofs.NewWords
import Verif.Props.Sw
import Verif.Props.Opt
/-!
# C66: no stream is smaller than its new content, and the worst case is attained

The bound is a statement about the format (`Spec.HwDecodes`), hence about every compressor.
-/

namespace Lib842.Props
open Spec

/-- C66: a stream without short data for `x` has at least 16 bits for every 16-bit word that occurs neither
in the 2048 bytes before its group nor in a zero group, 5 bits for every group with such a word, and 37 bits for the
end marker and the CRC. -/
theorem C66_lower_bound (s x : List Byte) (h : HwDecodes s x) :
    16 * newWords x + 5 * newGroups x + 37 ≤ 8 * s.length := (hw_size h).2

/-- C66 for the serial compressor -/
theorem C66_sw_lower_bound (e : Endian) (addr : Nat) (j : CompJunk) (x buf : List Byte) (n : Nat) (b : List Byte)
    (hx : x.length % 8 = 0) (h : sw842Compress e addr j x buf = .ret none n b) :
    16 * newWords x + 5 * newGroups x + 37 ≤ 8 * n := by
  have := C66_lower_bound _ _ (C26_sw_hw_compatible e addr j x buf n b h hx)
  rw [List.length_take] at this
  omega

/-- C66 for the optimised compressor -/
theorem C66_opt_lower_bound (e : Endian) (ain aout : Nat) (j : OptJunk) (jsw : CompJunk) (x buf : List Byte) (n : Nat)
    (b : List Byte) (h : optsw842Compress e ain aout j jsw x buf = .ret none n b) :
    16 * newWords x + 5 * newGroups x + 37 ≤ 8 * n := by
  have := C66_lower_bound _ _ (C26_opt_hw_compatible e ain aout j jsw x buf n b h).2
  rw [List.length_take] at this
  omega

/-- C66: data that consists of new words is incompressible. Whatever compressor of the format produced it, a stream
whose length is a multiple of 8 has at least the size that C12 guarantees to suffice. -/
theorem C66_incompressible (s x : List Byte) (hnew : AllNew x) (hs : s.length % 8 = 0) (h : HwDecodes s x) :
    8 * ((69 * (x.length / 8) + 37 + 63) / 64) ≤ s.length := by
  obtain ⟨h1, h2⟩ := hw_size h
  obtain ⟨h3, h4⟩ := AllNew.counts hnew h1
  rw [h3, h4] at h2
  omega

/-- C66: on such data the serial compressor needs exactly the size that C12 guarantees to suffice, and fails with
`-ENOSPC` below. -/
theorem C66_sw_exact (e : Endian) (addr : Nat) (j : CompJunk) (x buf : List Byte) (hnew : AllNew x) (hx : x.length % 8 = 0)
    (hmax : 8 * ((69 * (x.length / 8) + 37 + 63) / 64) ≤ 0xffffffff) :
    ∃ b, if 8 * ((69 * (x.length / 8) + 37 + 63) / 64) ≤ buf.length then
        sw842Compress e addr j x buf = .ret none (8 * ((69 * (x.length / 8) + 37 + 63) / 64)) b
      else sw842Compress e addr j x buf = .ret (some .ENOSPC) 0 b := by
  have key : ∀ n b, sw842Compress e addr j x buf = .ret none n b → 8 * ((69 * (x.length / 8) + 37 + 63) / 64) ≤ n := by
    intro n b h
    obtain ⟨-, h1, -⟩ := C07_sw_length_contract e e addr addr j j x buf buf n n b b h h
    have := C66_sw_lower_bound e addr j x buf n b hx h
    obtain ⟨h3, h4⟩ := AllNew.counts hnew hx
    rw [h3, h4] at this
    omega
  have hw := C12_sw_worst_case e addr j x buf
  simp only [if_pos hx, Nat.add_zero] at hw
  by_cases hcap : 8 * ((69 * (x.length / 8) + 37 + 63) / 64) ≤ buf.length
  · obtain ⟨n, b, h, hn⟩ := hw hcap hmax
    have := key n b h
    obtain rfl : n = 8 * ((69 * (x.length / 8) + 37 + 63) / 64) := by omega
    exact ⟨b, by rw [if_pos hcap]; exact h⟩
  · obtain ⟨b, -, hr⟩ := sw842Compress_eq e addr j x buf
    refine ⟨b, ?_⟩
    rw [if_neg hcap]
    split at hr
    · have h1 := key _ _ hr.1
      obtain ⟨-, -, h2, -⟩ := C07_sw_length_contract e e addr addr j j x buf buf _ _ b b hr.1 hr.1
      omega
    · exact hr

/-- C66, same for the optimised compressor. -/
theorem C66_opt_exact (e : Endian) (ain aout : Nat) (j : OptJunk) (jsw : CompJunk) (x buf : List Byte) (hnew : AllNew x)
    (hx : x.length % 8 = 0) (hne : x ≠ [])
    (hmax : (ain % 8 = 0 ∧ aout % 8 = 0) ∨ 8 * ((69 * (x.length / 8) + 37 + 63) / 64) ≤ 0xffffffff) :
    ∃ b, if 8 * ((69 * (x.length / 8) + 37 + 63) / 64) ≤ buf.length then
        optsw842Compress e ain aout j jsw x buf = .ret none (8 * ((69 * (x.length / 8) + 37 + 63) / 64)) b
      else optsw842Compress e ain aout j jsw x buf = .ret (some .ENOSPC) 0 b := by
  have key : ∀ n b, optsw842Compress e ain aout j jsw x buf = .ret none n b →
      8 * ((69 * (x.length / 8) + 37 + 63) / 64) ≤ n := by
    intro n b h
    obtain ⟨-, h1, -⟩ := C07_opt_length_contract e e ain aout ain aout j j jsw jsw x buf buf n n b b Iff.rfl h h
    have := C66_opt_lower_bound e ain aout j jsw x buf n b h
    obtain ⟨h3, h4⟩ := AllNew.counts hnew hx
    rw [h3, h4] at this
    omega
  by_cases hcap : 8 * ((69 * (x.length / 8) + 37 + 63) / 64) ≤ buf.length
  · obtain ⟨n, b, h, hn⟩ := C12_opt_worst_case e ain aout j jsw x buf hx hne hcap hmax
    have := key n b h
    obtain rfl : n = 8 * ((69 * (x.length / 8) + 37 + 63) / 64) := by omega
    exact ⟨b, by rw [if_pos hcap]; exact h⟩
  · obtain ⟨b, -, hr⟩ := optsw842Compress_eq e ain aout j jsw x buf hx (.inl hne)
    refine ⟨b, ?_⟩
    rw [if_neg hcap]
    rcases hr with ⟨-, -, h, -⟩ | ⟨-, h⟩
    · have h1 := key _ _ h
      obtain ⟨-, -, h2, -⟩ := C07_opt_length_contract e e ain aout ain aout j j jsw jsw x buf buf _ _ b b Iff.rfl h h
      omega
    · exact h

/-- C66: such data exists for every length that is a multiple of 8: the bound of C12 is attained everywhere. -/
theorem C66_worst_case_attained (g : Nat) : (counting g).length = 8 * g ∧ AllNew (counting g) :=
  ⟨length_counting g, counting_new g⟩

/-- Data with eight new words in two groups, a group that repeats words, and a zero group: 175 bits are needed, 32 bytes
are produced. -/
def exNew : List Byte := counting 2 ++ counting 1 ++ List.replicate 8 0

example : newWords exNew = 8 ∧ newGroups exNew = 2 ∧ exNew.length % 8 = 0 ∧
    (view (sw842Compress .little 0 junk0 exNew (List.replicate 100 0))).map (fun r => (r.1, r.2.1)) = some (none, 32) := by
  decide +kernel

end Lib842.Props
