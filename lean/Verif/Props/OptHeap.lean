import Verif.Model.OptHeap
import Verif.Proofs.OptCall
import Verif.Props.Opt
import Verif.Props.SwHeap
/-!
# C107: memory management of `optsw842_compress`
-/

namespace Lib842.Props
open Spec

theorem malloc_some {hp : Heap} (h : hp.live.length < hp.limit) :
    hp.malloc = some (hp.next, { hp with next := hp.next + 1, live := hp.next :: hp.live }) := by
  unfold Heap.malloc
  rw [if_pos h]

/-- C107, with aligned buffers: two blocks are enough, whatever the input and the output buffer.  The result is that of the model without
memory management, and afterwards exactly the blocks that were allocated before are allocated, whether the call succeeds or the exception of a full
stream is caught. Partial: the full claim is that a lack of memory is reported, see `C107_memory_false`. -/
theorem C107_memory_partial (e : Endian) (ain aout : Nat) (hal : ain % 8 = 0 ∧ aout % 8 = 0) (j : OptJunk) (jsw : CompJunk) (x buf : List Byte)
    (hx : x ≠ []) (hp : Heap) (hf : ∀ c ∈ hp.live, c < hp.next) (hl : hp.live.length + 2 ≤ hp.limit) :
    ∃ hp', optsw842CompressH e ain aout j jsw x buf hp = some (optsw842Compress e ain aout j jsw x buf, hp') ∧ hp'.live = hp.live := by
  by_cases h8 : x.length % 8 = 0
  swap
  · refine ⟨hp, ?_, rfl⟩
    rw [optsw842Compress_odd _ _ _ _ _ _ _ h8]
    unfold optsw842CompressH
    rw [if_pos h8]
  have hb := C04_opt_compress_in_bounds e ain aout j jsw x buf
  have hub : optsw842Compress e ain aout j jsw x buf ≠ .ub := fun h => hx (hb.1.1 h).1
  have hto := hb.2.1
  have hne : hp.next ∉ hp.live := fun h => absurd (hf _ h) (by omega)
  have hc : ∃ hp', ocompClose (hp.next + 1) hp.next ⟨hp.next + 2, (hp.next + 1) :: hp.next :: hp.live, hp.limit⟩ = some hp' ∧
      hp'.live = hp.live := by
    simp [ocompClose, Heap.free]
  obtain ⟨hp', hc, hlive⟩ := hc
  unfold optsw842Compress optsw842CompressF at hub hto ⊢
  unfold optsw842CompressH
  rw [if_neg (by omega), if_neg (by omega)] at hub hto ⊢
  rw [if_neg (by omega), if_neg (by omega), malloc_some (by omega)]
  simp only
  rw [malloc_some (by simp only [List.length_cons]; omega)]
  simp only
  cases hr : ocompBody (.std e) e ain (x.length / 8 + 1) x (ocompInit j x buf) with
  | ok n p => exact ⟨hp', by simp only [hc]; rfl, hlive⟩
  | err er p => exact ⟨hp', by simp only [hc]; rfl, hlive⟩
  | ub => rw [hr] at hub; exact absurd rfl hub
  | timeout => rw [hr] at hto; exact absurd rfl hto

/-- C107: two blocks are needed as well, unless the length of the input is rejected. -/
theorem C107_two_needed (e : Endian) (ain aout : Nat) (hal : ain % 8 = 0 ∧ aout % 8 = 0) (j : OptJunk) (jsw : CompJunk) (x buf : List Byte)
    (h8 : x.length % 8 = 0) (hp : Heap) (hl : hp.limit < hp.live.length + 2) : optsw842CompressH e ain aout j jsw x buf hp = none := by
  unfold optsw842CompressH
  rw [if_neg (by omega), if_neg (by omega)]
  by_cases h : hp.live.length < hp.limit
  · rw [malloc_some h]
    simp only
    have : (⟨hp.next + 1, hp.next :: hp.live, hp.limit⟩ : Heap).malloc = none := by
      unfold Heap.malloc
      rw [if_neg (by simp only [List.length_cons]; omega)]
    rw [this]
  · have : hp.malloc = none := by
      unfold Heap.malloc
      rw [if_neg h]
    rw [this]

/-- C107, any alignment: 2049 blocks are enough (those of `sw842_compress`, which does the work if the buffers are not aligned). -/
theorem C107_any_alignment (e : Endian) (ain aout : Nat) (j : OptJunk) (jsw : CompJunk) (x buf : List Byte)
    (hx : x ≠ []) (hp : Heap) (hn : hp.live.Nodup) (hf : ∀ c ∈ hp.live, c < hp.next) (hl : hp.live.length + 2049 ≤ hp.limit) :
    ∃ hp', optsw842CompressH e ain aout j jsw x buf hp = some (optsw842Compress e ain aout j jsw x buf, hp') ∧ hp'.live.Perm hp.live := by
  by_cases hal : ain % 8 = 0 ∧ aout % 8 = 0
  · obtain ⟨hp', h1, h2⟩ := C107_memory_partial e ain aout hal j jsw x buf hx hp hf (by omega)
    exact ⟨hp', h1, h2 ▸ List.Perm.refl _⟩
  · by_cases h8 : x.length % 8 = 0
    · obtain ⟨hp', h1, h2⟩ := C71_memory_partial e ain jsw x buf hp hn hf hl
      refine ⟨hp', ?_, h2⟩
      unfold optsw842CompressH optsw842Compress optsw842CompressF
      rw [if_neg (by omega), if_pos (by omega), if_neg (by omega), if_pos (by omega)]
      exact h1
    · refine ⟨hp, ?_, List.Perm.refl _⟩
      rw [optsw842Compress_odd _ _ _ _ _ _ _ h8]
      unfold optsw842CompressH
      rw [if_pos h8]

/-- C107, the negation of the full claim: with room for one more block a null pointer is used, for all input of whole groups. -/
theorem C107_memory_false : ¬ ∀ (e : Endian) (ain aout : Nat) (j : OptJunk) (jsw : CompJunk) (x buf : List Byte) (hp : Heap), x ≠ [] →
    hp.live.Nodup → (∀ c ∈ hp.live, c < hp.next) → hp.live.length ≤ hp.limit →
    ∃ r hp', optsw842CompressH e ain aout j jsw x buf hp = some (r, hp') ∧ hp'.live.Perm hp.live := by
  intro h
  obtain ⟨r, hp', h1, -⟩ := h .little 0 0 ojunk0 junk0 [1, 2, 3, 4, 5, 6, 7, 8] (List.replicate 32 0) ⟨5, [3, 4], 3⟩ (by decide) (by decide)
    (by decide) (by decide)
  rw [C107_two_needed _ 0 0 ⟨rfl, rfl⟩ _ _ _ _ rfl _ (by decide)] at h1
  cases h1

/-- The hypotheses are met, with blocks of others around; the call succeeds, or the output buffer is too small. -/
example : let hp : Heap := ⟨7, [3, 5], 4⟩
    (∀ c ∈ hp.live, c < hp.next) ∧ hp.live.length + 2 ≤ hp.limit ∧
    (optsw842CompressH .little 0 0 ojunk0 junk0 [1, 2, 3, 4, 5, 6, 7, 8] (List.replicate 32 0) hp).map
      (fun r => (match r.1 with | .ret er n _ => (er, n) | _ => (none, 0), r.2.live)) = some ((none, 16), [3, 5]) ∧
    (optsw842CompressH .little 0 0 ojunk0 junk0 [1, 2, 3, 4, 5, 6, 7, 8] (List.replicate 15 0) hp).map
      (fun r => (match r.1 with | .ret er n _ => (er, n) | _ => (none, 0), r.2.live)) = some ((some .ENOSPC, 0), [3, 5]) := by
  decide +kernel

end Lib842.Props
