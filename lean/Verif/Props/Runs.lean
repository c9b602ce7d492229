import Verif.Proofs.Runs
import Verif.Props.Minimal
import Verif.Props.Expansion
/-!
# Property theorems about runs of equal groups (C119)
-/

namespace Lib842
open Spec Runs

/-- Size of a stream for the group `g` (8 bytes) and `k` repetitions of it: 5 bits for a zero group or 69 for any other, 11 bits for every 64
repetitions or part of them, 37 bits for the end, in whole words (/repo/src/common/842.h 74-95; the loops in /repo/src/serial/842_compress.c and
/repo/src/serial_optimized/842_compress.cpp). -/
def runSize (g : List Byte) (k : Nat) : Nat := 8 * (((if g = List.replicate 8 0#8 then 5 else 69) + 11 * ((k + 63) / 64) + 37 + 63) / 64)

namespace Props

/-- C119: what `sw842_compress` makes of a run of `k + 1` equal groups, whatever the group is and however long the run: a stream of exactly
`runSize g k` bytes, or `-ENOSPC` if there is no room for them. -/
theorem C119_sw_run (e : Endian) (addr : Nat) (j : CompJunk) (g buf : List Byte) (k : Nat) (hg : g.length = 8) (hmax : runSize g k ≤ 0xffffffff) :
    ∃ b, if runSize g k ≤ buf.length then sw842Compress e addr j (List.replicate (k + 1) g).flatten buf = .ret none (runSize g k) b
      else sw842Compress e addr j (List.replicate (k + 1) g).flatten buf = .ret (some .ENOSPC) 0 b := by
  obtain ⟨b, -, h⟩ := sw842Compress_eq e addr j (List.replicate (k + 1) g).flatten buf
  have hs : paddedSize (streamBits (List.replicate (k + 1) g).flatten).length = runSize g k := by
    rw [sw_bits hg]; rfl
  rw [hs] at h
  refine ⟨b, ?_⟩
  by_cases hb : runSize g k ≤ buf.length
  · rw [if_pos ⟨hb, hmax⟩] at h
    rw [if_pos hb]; exact h.1
  · rw [if_neg (fun h => hb h.1)] at h
    rw [if_neg hb]; exact h

/-- C119: the same for `optsw842_compress`, so on runs it loses nothing. -/
theorem C119_opt_run (e : Endian) (ain aout : Nat) (j : OptJunk) (jsw : CompJunk) (g buf : List Byte) (k : Nat) (hg : g.length = 8)
    (hmax : (ain % 8 = 0 ∧ aout % 8 = 0) ∨ runSize g k ≤ 0xffffffff) :
    ∃ b, if runSize g k ≤ buf.length then optsw842Compress e ain aout j jsw (List.replicate (k + 1) g).flatten buf = .ret none (runSize g k) b
      else optsw842Compress e ain aout j jsw (List.replicate (k + 1) g).flatten buf = .ret (some .ENOSPC) 0 b := by
  have hl := flat_length hg (k + 1)
  obtain ⟨b, -, h⟩ := optsw842Compress_eq e ain aout j jsw (List.replicate (k + 1) g).flatten buf (by omega)
    (.inl (by intro h; rw [h] at hl; simp at hl))
  have hs : paddedSize (optBits ain aout (List.replicate (k + 1) g).flatten).length = runSize g k := by
    unfold optBits
    split
    · rw [sw_bits hg]; rfl
    · rw [opt_bits hg]; rfl
  rw [hs] at h
  refine ⟨b, ?_⟩
  rcases h with ⟨h1, -, h2, -⟩ | ⟨h1, h2⟩
  · rw [if_pos h1]; exact h2
  · rw [if_neg (fun h => h1 ⟨h, hmax⟩)]; exact h2

/-- C119: for a group that is not zero there is no shorter stream of whole words. -/
theorem C119_shortest (g s : List Byte) (k : Nat) (hg : g.length = 8) (hz : g ≠ List.replicate 8 0#8)
    (hs : HwDecodes s (List.replicate (k + 1) g).flatten) (h8 : s.length % 8 = 0) : runSize g k ≤ s.length := by
  have hl := flat_length hg (k + 1)
  have h1 := sw_bits hg k
  have hw := no_waste hg hz (k + 1)
  have hr : runSize g k = 8 * ((headCost g + 11 * ((k + 63) / 64) + 37 + 63) / 64) := rfl
  generalize (List.replicate (k + 1) g).flatten = x at hs hl h1 hw
  have h2 := refOps_cost (x := x) (by omega)
  have h3 := sw_waste x
  have h4 := hw_bits hs
  have ht : (streamBits x).length = ((refOps x).flatMap Op.bits).length + 37 := by
    unfold streamBits; rw [List.length_append]; simp [trailer]
  omega

/-- C119: on zeros both compressors reach the expansion rate that no stream can exceed (C72), for arbitrarily long data. -/
theorem C119_limit (m : Nat) (hm : m < 40000000) : ∃ x n, x = List.replicate (8 * (64 * (64 * m + 2) + 1)) 0#8 ∧
    (∀ (e : Endian) (addr : Nat) (j : CompJunk) (buf : List Byte), n ≤ buf.length → ∃ b, sw842Compress e addr j x buf = .ret none n b) ∧
    (∀ (e : Endian) (ain aout : Nat) (j : OptJunk) (jsw : CompJunk) (buf : List Byte), n ≤ buf.length →
      ∃ b, optsw842Compress e ain aout j jsw x buf = .ret none n b) ∧
    11 * x.length + 21416 = 4096 * n ∧ ∀ s : List Byte, Decodes s x → n ≤ s.length := by
  have hx : List.replicate (8 * (64 * (64 * m + 2) + 1)) 0#8 = (List.replicate (64 * (64 * m + 2) + 1) (List.replicate 8 0#8)).flatten := by
    rw [List.flatten_replicate_replicate, Nat.mul_comm]
  have hn : runSize (List.replicate 8 0#8) (64 * (64 * m + 2)) = 8 * (11 * m + 1) := by
    unfold runSize
    rw [if_pos rfl]
    omega
  refine ⟨_, 8 * (11 * m + 1), rfl, fun e addr j buf hb => ?_, fun e ain aout j jsw buf hb => ?_, ?_, fun s hs => ?_⟩
  · obtain ⟨b, h⟩ := C119_sw_run e addr j (List.replicate 8 0#8) buf (64 * (64 * m + 2)) rfl (by rw [hn]; omega)
    rw [hn, if_pos hb, ← hx] at h
    exact ⟨b, h⟩
  · obtain ⟨b, h⟩ := C119_opt_run e ain aout j jsw (List.replicate 8 0#8) buf (64 * (64 * m + 2)) rfl (.inr (by rw [hn]; omega))
    rw [hn, if_pos hb, ← hx] at h
    exact ⟨b, h⟩
  · rw [List.length_replicate]; omega
  · rcases C72_bound _ _ hs with h | h
    · have := congrArg List.length h
      rw [List.length_replicate] at this
      simp at this
    · rw [List.length_replicate] at h
      omega

/-- A page of zeros (4096 bytes) takes 24 bytes, a page of ones 32; 129 repetitions need a third repeat op. -/
example : runSize (List.replicate 8 0#8) 511 = 24 ∧ runSize (List.replicate 8 0xff#8) 511 = 32 ∧ runSize (List.replicate 8 0#8) 64 = 8 ∧
    runSize (List.replicate 8 0#8) 128 = 8 ∧ runSize (List.replicate 8 0#8) 129 = 16 := by decide

/-- The same, computed by the model. -/
example : (view (sw842Compress .little 0 junk0 (List.replicate (8 * 130) 0) (List.replicate 16 0))).map (fun r => (r.1, r.2.1)) = some (none, 16) ∧
    (view (sw842Compress .little 0 junk0 (List.replicate (8 * 129) 0) (List.replicate 16 0))).map (fun r => (r.1, r.2.1)) = some (none, 8) := by
  constructor <;> decide +kernel

end Props
end Lib842
