import Verif.Proofs.WorkBound
import Verif.Proofs.Ocl
/-!
# Work of the OpenCL decoder in terms of the room for the output
-/

namespace Lib842
open Spec

namespace Work
variable {σ : Type}

theorem dec_room {D : Dec σ} {it : M σ Bool} (h : D.Ok it) (hK : ∀ p', D.Keep p') (fuel : Nat) {p : σ} (hp : D.Inv p)
    (hf : D.cap < (D.outp p).length + 8 * fuel) : M.doWhile it fuel p ≠ .timeout := by
  induction fuel generalizing p with
  | zero => have := h.fits p hp.1; omega
  | succ fuel ih =>
    rw [M.doWhile]
    have hs := h.step p hp
    generalize hx : it p = x at hs
    cases hs with
    | fin hw hfu ho hr => rw [M.bind_ok hx, if_pos rfl]; intro h; cases h
    | @op p1 op hw hfu hv hsh hr hst =>
      rw [M.bind_ok hx, if_neg (by decide)]
      have := opStep_ge8 hv hsh hst
      exact ih ⟨hw, hfu (hK _)⟩ (by omega)
    | full => rw [M.bind_err hx]; intro h; cases h
    | bad => rw [M.bind_err hx]; intro h; cases h
    | ub => rw [M.bind_def, hx]; intro h; cases h

theorem dec_ends {D : Dec σ} {it : M σ Bool} (h : D.Ok it) (hK : ∀ p', D.Keep p') (fuel : Nat) {p : σ} (hp : D.Inv p)
    (hf : (D.rest p).length < 5 * fuel) : M.doWhile it fuel p ≠ .timeout := by
  have := h.loop_res hK fuel hp hf
  generalize M.doWhile it fuel p = x at this
  cases this <;> (intro h; cases h)

/-- A run that has not come to its end yet. -/
theorem dec_short {D : Dec σ} {it : M σ Bool} (h : D.Ok it) (hK : ∀ p', D.Keep p') {ops : List Op} (hval : ∀ op ∈ ops, op.Valid)
    (hsh : ∀ op ∈ ops, op.isShort = false) {p : σ} (hp : D.Inv p) {R : List Bool} (hR : D.rest p = ops.flatMap Op.bits ++ R) {data : List Byte}
    (hrun : Run (D.outp p) ops data) (hcap : data.length ≤ D.cap) : M.doWhile it ops.length p = .timeout := by
  induction ops generalizing p with
  | nil => rfl
  | cons op ops ih =>
    have hv0 := hval op (List.mem_cons_self ..)
    have hs0 := hsh op (List.mem_cons_self ..)
    cases hrun with
    | @cons _ _ o1 _ _ h1 h2 =>
      have hle := h2.length_le
      rw [List.flatMap_cons, List.append_assoc] at hR
      rw [List.length_cons, M.doWhile]
      have hs := h.step p hp
      generalize hx : it p = x at hs
      cases hs with
      | fin _ _ _ hr => rw [hR] at hr; exact (Dec.end_ne_op hv0 hr.symm).elim
      | @op p' op' hw hfu hv _ hr hst =>
        rw [hR] at hr
        obtain ⟨rfl, hr'⟩ := op_bits_inj hv0 hv hr
        have ho : D.outp p' = o1 := OpStep.det hv0 hst h1
        rw [M.bind_ok hx, if_neg (by decide)]
        exact ih (fun o h => hval o (List.mem_cons_of_mem _ h)) (fun o h => hsh o (List.mem_cons_of_mem _ h)) ⟨hw, hfu (hK _)⟩ hr'.symm
          (by rw [ho]; exact h2)
      | full hv _ hr hst hfull _ =>
        rw [hR] at hr
        obtain ⟨rfl, hr⟩ := op_bits_inj hv0 hv hr
        have := OpStep.det hv0 hst h1
        subst this
        omega
      | bad _ hno _ => exact absurd h1 (hno op _ o1 hv0 hs0 hR)
      | ub _ hst => have := hst.2 op _ o1 hv0 hs0 hR h1; omega

end Work
end Lib842
