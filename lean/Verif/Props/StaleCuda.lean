import Verif.Proofs.StaleCuda
import Verif.Props.Stale
/-!
# Old contents of the output buffer: what is left of C100 for the CUDA decoder
-/

namespace Lib842.Props
open Spec

/-- C100 for a thread of the CUDA decoder, without the part that is false (`C100_cuda_false`: the stored bytes `w` may contain old contents of the
buffer).  For every input, valid or not, there are a size `K` from which on the buffer suffices, whatever it contains, and a number of words `n`
that are stored, whatever the buffer contains and however long it is; what lies behind them is left alone. -/
theorem C100_cuda_partial (inp : List Byte) :
    (∀ buf : List Byte, cudaThread inp buf = none) ∨
      ∃ n K, 8 * n ≤ K ∧ (∀ buf : List Byte, buf.length < K → cudaThread inp buf = none) ∧
        ∀ buf : List Byte, K ≤ buf.length → ∃ w : List Byte, w.length = 8 * n ∧ cudaThread inp buf = some (w ++ buf.drop (8 * n)) := by
  classical
  by_cases hex : ∃ k, ∃ buf : List Byte, buf.length = k ∧ cudaThread inp buf ≠ none
  · obtain ⟨b0, hl, h0⟩ := Nat.find_spec hex
    obtain ⟨b, hb⟩ := Option.ne_none_iff_exists'.1 h0
    obtain ⟨n, hn, h⟩ := cuda_stale hb
    refine .inr ⟨n, Nat.find hex, by omega, fun buf hlt => ?_, fun buf hle => ?_⟩
    · by_contra hc
      exact Nat.find_min hex hlt ⟨buf, rfl, hc⟩
    · obtain ⟨b', h1, h2, h3⟩ := h buf (by omega)
      refine ⟨b'.take (8 * n), by rw [List.length_take]; omega, ?_⟩
      rw [h1, ← h3, List.take_append_drop]
  · refine .inl fun buf => ?_
    by_contra hc
    exact hex ⟨_, buf, rfl, hc⟩

/-- The second case for the invalid stream of `C100_cuda_false`: it stores two words and reads the third, so `K` is 24. -/
example : (∀ buf : List Byte, buf.length < 24 → cudaThread exStale buf = none) ∧
    ∃ n, 2 ≤ n ∧ n ≤ 3 ∧ ∀ buf : List Byte, 24 ≤ buf.length → ∃ w : List Byte, w.length = 8 * n ∧ cudaThread exStale buf = some (w ++ buf.drop (8 * n)) := by
  have h1 := C100_cuda_copies 1
  have h23 : cudaThread exStale (List.replicate 23 0) = none := by decide +kernel
  rcases C100_cuda_partial exStale with h | ⟨n, K, hn, hK, h⟩
  · rw [h] at h1
    cases h1
  · have hle : K ≤ 24 := by
      by_contra hc
      rw [hK _ (by simp; omega)] at h1
      cases h1
    have hge : 24 ≤ K := by
      by_contra hc
      obtain ⟨w, -, hw⟩ := h (List.replicate 23 0) (by simp; omega)
      rw [h23] at hw
      cases hw
    have hKe : K = 24 := by omega
    subst hKe
    refine ⟨hK, n, ?_, by omega, h⟩
    obtain ⟨w, hw, hb⟩ := h (List.replicate 16 0 ++ List.replicate 8 1) (by decide)
    rw [h1] at hb
    have := congrArg (·[8]?) (Option.some.inj hb)
    by_contra hc
    rw [List.getElem?_append_right (show w.length ≤ 8 by omega), List.getElem?_drop, show 8 * n + (8 - w.length) = 8 by omega] at this
    exact absurd this (by decide)

end Lib842.Props
