import Verif.Proofs.PrefixCuda
import Verif.Props.Prefix
/-!
# Damage in a stream does not affect the data in front of it: a thread of the CUDA decoder (C94)

`c'` is what is left of a stream `c`: its first `k` bytes are those of `c`; what comes after them may be anything, or be missing.
The decoder checks nothing: for many `c'` it is undefined, and what it returns is not marked as damaged.
-/

namespace Lib842.Props
open Spec

/-- C94 for a thread of the CUDA decoder. -/
theorem C94_cuda_recover (c c' x buf : List Byte) (hc : HwDecodes c x) (k : Nat) (hk : k ≤ c.length) (heq : c'.take k = c.take k)
    (hcap : x.length ≤ buf.length) (b : List Byte) (h : cudaThread c' buf = some b) (m : Nat) (hm : m ≤ 8 * (64 * (k / 8) / 69)) :
    b.take (min x.length m) = x.take m := by
  obtain ⟨ops, R, hx, hs, hb⟩ := hc
  have hkl : k ≤ c'.length := by
    have := congrArg List.length heq
    rw [List.length_take, List.length_take] at this
    omega
  obtain ⟨pre, post, o, he, hle, ho, hmem, hmin, hpx⟩ := ops_within hx (fun op h => hs op (List.dropLast_subset _ h)) (64 * (k / 8))
  have hol : o.length ≤ x.length := by rw [← hpx, List.length_take]; omega
  rw [he, List.flatMap_append, List.append_assoc, List.append_assoc] at hb
  obtain ⟨S, hS⟩ := bits_within (L := 8 * (k / 8)) heq hk hb (by omega) (by omega) (8 * (c'.length / 8)) (by omega)
  have hw := cuda_prefix ho (fun op h => hs op (hmem op h)) hS (by omega) h
  rw [← hpx] at hw
  rw [List.length_take, Nat.min_eq_left hol] at hw
  have := congrArg (List.take (min x.length m)) hw
  rw [List.take_take, List.take_take, Nat.min_eq_left (by omega)] at this
  rw [this]
  exact List.take_eq_take_iff.2 (by omega)

/-- The stream for 24 bytes without repetitions -/
def exOut24 : List Byte := [0, 0, 8, 16, 24, 32, 40, 48, 56, 2, 2, 66, 130, 195, 3, 67, 131, 192, 32, 34, 36, 38, 40, 42, 44, 47, 239, 57, 235, 138, 64, 0]

/-- Its last 16 bytes damaged: the decoder returns other data, in which the guaranteed 8 bytes are right (here 14). -/
example : (exOut24.take 16 ++ [0, 0x3c, 0, 0, 0, 0, 0, 0]).take 16 = exOut24.take 16 ∧ 8 * (64 * (16 / 8) / 69) = 8 ∧
    cudaThread (exOut24.take 16 ++ [0, 0x3c, 0, 0, 0, 0, 0, 0]) (List.replicate 24 0xaa) =
      some ([0, 1, 2, 3, 4, 5, 6, 7, 8, 9, 10, 11, 12, 13, 12, 0] ++ List.replicate 8 0xaa) :=
  ⟨by decide, by decide, by decide +kernel⟩

example : HwDecodes exOut24 ((List.range 24).map (BitVec.ofNat 8)) := by
  have h : ∃ b, sw842Compress .little 0 junk0 ((List.range 24).map (BitVec.ofNat 8)) (List.replicate 40 0) = .ret none 32 (exOut24 ++ b) :=
    ⟨List.replicate 8 0, by decide +kernel⟩
  obtain ⟨b, h⟩ := h
  have := C26_sw_hw_compatible _ _ _ _ _ _ _ h (by decide)
  rwa [List.take_left' (by decide)] at this

end Lib842.Props
