import Verif.Proofs.SwHeap
import Verif.Proofs.SwCall
import Verif.Props.Sw
/-!
# C71: memory management of `sw842_compress`

`sw842CompressH` is the compressor with its `malloc`s and `free`s; `none` is undefined behaviour: use of a block that is not
allocated, `free` of one that is not, or a null dereference after a failed `malloc`.
-/

namespace Lib842.Props
open Spec SwHeap

/-- C71: whatever the input and the output buffer, and whether or not the call succeeds: if there is room for 2049 more blocks
(however long the input), no block is used after `free` or freed twice, the result is that of the model without memory
management, and afterwards exactly the blocks that were allocated before are allocated. Partial: the full claim is that a lack of
memory is reported, see `C71_memory_false`. -/
theorem C71_memory_partial (e : Endian) (addr : Nat) (j : CompJunk) (x buf : List Byte) (hp : Heap)
    (hn : hp.live.Nodup) (hf : ∀ c ∈ hp.live, c < hp.next) (hl : hp.live.length + 2049 ≤ hp.limit) :
    ∃ hp', sw842CompressH e addr j x buf hp = some (sw842Compress e addr j x buf, hp') ∧ hp'.live.Perm hp.live := by
  have h := sw842CompressH_ok e addr j x buf hp hn hf hl
  have hb : sw842Compress e addr j x buf ≠ .ub ∧ sw842Compress e addr j x buf ≠ .timeout := by
    obtain ⟨b, -, hr⟩ := sw842Compress_eq e addr j x buf
    split at hr
    · rw [hr.1]; exact ⟨Call.noConfusion, Call.noConfusion⟩
    · rw [hr]; exact ⟨Call.noConfusion, Call.noConfusion⟩
  unfold sw842Compress sw842CompressF at hb ⊢
  cases hr : compBody e addr (x.length / 8 + 1) x buf.length (compInit j x buf) with
  | ok n p => rw [hr] at h; exact h
  | err er p => rw [hr] at h; exact h
  | ub => rw [hr] at hb; exact absurd rfl hb.1
  | timeout => rw [hr] at hb; exact absurd rfl hb.2

/-- C71: with enough memory, the result in terms of the format. -/
theorem C71_result (e : Endian) (addr : Nat) (j : CompJunk) (x buf : List Byte) (hp : Heap)
    (hn : hp.live.Nodup) (hf : ∀ c ∈ hp.live, c < hp.next) (hl : hp.live.length + 2049 ≤ hp.limit) :
    ∃ n b hp', hp'.live.Perm hp.live ∧
      ((sw842CompressH e addr j x buf hp = some (.ret none n b, hp') ∧ Decodes (b.take n) x) ∨
        sw842CompressH e addr j x buf hp = some (.ret (some .ENOSPC) 0 b, hp')) := by
  obtain ⟨hp', h1, h2⟩ := C71_memory_partial e addr j x buf hp hn hf hl
  obtain ⟨b, hb, hr⟩ := sw842Compress_eq e addr j x buf
  split at hr
  · exact ⟨_, b, hp', h2, .inl ⟨by rw [h1, hr.1], streamBits_decodes hr.2⟩⟩
  · exact ⟨0, b, hp', h2, .inr (by rw [h1, hr])⟩

/-- C71, the negation of the full claim: with room for two blocks more (`p` and one entry of the dictionary of 8-byte groups),
compressing 8 bytes dereferences a null pointer. -/
theorem C71_memory_false :
    ¬ ∀ (e : Endian) (addr : Nat) (j : CompJunk) (x buf : List Byte) (hp : Heap), hp.live.Nodup →
      (∀ c ∈ hp.live, c < hp.next) → hp.live.length ≤ hp.limit →
      ∃ r hp', sw842CompressH e addr j x buf hp = some (r, hp') ∧ hp'.live.Perm hp.live := by
  intro h
  obtain ⟨r, hp', h1, -⟩ := h .little 0 junk0 [1, 2, 3, 4, 5, 6, 7, 8] (List.replicate 32 0) ⟨5, [3, 4], 4⟩
    (by decide) (by decide) (by decide)
  have h2 : sw842CompressH .little 0 junk0 [1, 2, 3, 4, 5, 6, 7, 8] (List.replicate 32 0) ⟨5, [3, 4], 4⟩ = none := by
    decide +kernel
  rw [h2] at h1
  cases h1

/-- The hypotheses are met, with blocks of others around; the dictionaries are in use (two groups, one found again). -/
example : let hp : Heap := ⟨7, [3, 5], 3000⟩
    hp.live.Nodup ∧ (∀ c ∈ hp.live, c < hp.next) ∧ hp.live.length + 2049 ≤ hp.limit ∧
    (sw842CompressH .little 0 junk0 ([1, 2, 3, 4, 5, 6, 7, 8] ++ [9, 9, 9, 9, 1, 2, 3, 4] ++ [1, 2, 3, 4, 5, 6, 7, 8])
      (List.replicate 64 0) hp).map (fun r => (match r.1 with | .ret er n _ => (er, n) | _ => (none, 0), r.2.live)) =
      some ((none, 24), [3, 5]) := by
  decide +kernel

/-- The memory is also given back when the output buffer is too small. -/
example : let hp : Heap := ⟨7, [3, 5], 3000⟩
    (sw842CompressH .little 0 junk0 ([1, 2, 3, 4, 5, 6, 7, 8] ++ [9, 9, 9, 9, 1, 2, 3, 4] ++ [1, 2, 3, 4, 5, 6, 7, 8])
      (List.replicate 10 0) hp).map (fun r => (match r.1 with | .ret er n _ => (er, n) | _ => (none, 0), r.2.live)) =
      some ((some .ENOSPC, 0), [3, 5]) := by
  decide +kernel

end Lib842.Props
