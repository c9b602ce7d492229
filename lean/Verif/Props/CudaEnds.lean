import Verif.Proofs.CudaEnds
import Verif.Props.Stale
/-!
# A thread of the CUDA decoder ends (C09)
-/

namespace Lib842.Props

/-- C09 for the CUDA decoder: for arbitrary input and output buffer, one iteration per 5 bits of input is enough.  After that many the loop has come to
its end or to an access that is out of bounds, and more do not change anything; `none` as the result of `cudaThread` always is such an access. -/
theorem C09_cuda_terminates (fuel : Nat) (inp buf : List Byte) (hf : 8 * inp.length / 5 < fuel) :
    let p0 : CudaP := { inp := inp, word := 0, buf := buf, out := 0, bits := 0, buffer := 0#64 }
    M.doWhile cudaIter fuel p0 ≠ .timeout ∧
      (cudaThread inp buf = none ↔ M.doWhile cudaIter fuel p0 = .ub) ∧
      ∀ b, cudaThread inp buf = some b ↔ ∃ p, M.doWhile cudaIter fuel p0 = .ok () p ∧ p.buf = b := by
  intro p0
  have h1 := cudaLoop_ends fuel p0 (Nat.zero_le _) (by simp only [CudaP.left, p0]; omega)
  have h2 := cudaLoop_ends (8 * inp.length + 1) p0 (Nat.zero_le _) (by simp only [CudaP.left, p0]; omega)
  have nt : ∀ f, (M.doWhile cudaIter f p0 = .ub ∨ ∃ p', M.doWhile cudaIter f p0 = .ok () p') → M.doWhile cudaIter f p0 ≠ .timeout := by
    rintro f (h | ⟨p', h⟩) <;> rw [h] <;> intro hc <;> cases hc
  have he := Lib842.Work.doWhile_any cudaIter (nt _ h1) (nt _ h2)
  refine ⟨nt _ h1, ?_⟩
  unfold cudaThread
  rw [← he]
  change ((match M.doWhile cudaIter fuel p0 with | .ok _ p => some p.buf | _ => none) = none ↔ _) ∧
    ∀ b, (match M.doWhile cudaIter fuel p0 with | .ok _ p => some p.buf | _ => none) = some b ↔ _
  rcases h1 with h | ⟨p', h⟩
  · rw [h]
    exact ⟨⟨fun _ => rfl, fun _ => rfl⟩, fun b => ⟨fun hc => (by cases hc), fun ⟨_, hc, _⟩ => (by cases hc)⟩⟩
  · rw [h]
    refine ⟨⟨fun hc => (by cases hc), fun hc => (by cases hc)⟩, fun b => ⟨fun hc => ⟨p', rfl, Option.some.inj hc⟩, fun ⟨p, hp, hb⟩ => ?_⟩⟩
    cases hp
    rw [← hb]

/-- An input of 8 bytes, 12 ops at most: 13 iterations -/
example : 8 * exStale.length / 5 < 13 ∧ (cudaThread exStale (List.replicate 24 0)).isSome ∧ cudaThread exStale (List.replicate 8 0) = none := by
  decide +kernel

end Lib842.Props
