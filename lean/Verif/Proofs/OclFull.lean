import Verif.Proofs.NoRoom
import Verif.Proofs.Ocl
import Verif.Proofs.Overflow
import Verif.SpecRoom
/-!
# Exactly when the OpenCL decoder reports a lack of space
-/

namespace Lib842
open Spec

namespace Dec
variable {σ : Type}

/-- Ops for more than there is room for: the loop reports that, or is undefined. -/
theorem Ok.loop_over {D : Dec σ} {it : M σ Bool} (h : D.Ok it) (hK : ∀ p', D.Keep p') {ops : List Op} (hval : ∀ op ∈ ops, op.Valid)
    (hsh : ∀ op ∈ ops, op.isShort = false) {p : σ} (hp : D.Inv p) {R : List Bool} (hR : D.rest p = ops.flatMap Op.bits ++ R)
    {o : List Byte} (hrun : Run (D.outp p) ops o) (hcap : D.cap < o.length) {fuel : Nat} (hf : ops.length < fuel) :
    (∃ p', M.doWhile it fuel p = .err .ENOSPC p') ∨ M.doWhile it fuel p = .ub := by
  induction ops generalizing p fuel with
  | nil =>
    cases hrun
    have := h.fits p hp.1
    omega
  | cons op ops ih =>
    obtain ⟨fuel, rfl⟩ : ∃ f, fuel = f + 1 := ⟨fuel - 1, by simp at hf; omega⟩
    have hv0 := hval op (List.mem_cons_self ..)
    have hs0 := hsh op (List.mem_cons_self ..)
    cases hrun with
    | @cons _ _ o1 _ _ h1 h2 =>
      rw [List.flatMap_cons, List.append_assoc] at hR
      rw [M.doWhile]
      have hs := h.step p hp
      generalize hx : it p = x at hs
      cases hs with
      | fin _ _ _ hr => rw [hR] at hr; exact (end_ne_op hv0 hr.symm).elim
      | @op p' op' hw hfu hv _ hr hst =>
        rw [hR] at hr
        obtain ⟨rfl, hr'⟩ := op_bits_inj hv0 hv hr
        have ho : D.outp p' = o1 := OpStep.det hv0 hst h1
        rw [M.bind_ok hx, if_neg (by decide)]
        exact ih (fun o ho => hval o (List.mem_cons_of_mem _ ho)) (fun o ho => hsh o (List.mem_cons_of_mem _ ho)) ⟨hw, hfu (hK _)⟩ hr'.symm
          (by rw [ho]; exact h2) (by simp only [List.length_cons] at hf; omega)
      | @full p' _ _ _ _ _ _ _ _ _ => exact .inl ⟨p', by rw [M.bind_err hx]⟩
      | bad _ hno _ => exact absurd h1 (hno op _ o1 hv0 hs0 hR)
      | ub _ _ => exact .inr (by rw [M.bind_def, hx])

end Dec

namespace Codes

theorem ocl_over (e : Endian) (inp : List Byte) (ioff ilen : Nat) (buf : List Byte) (olen : Nat)
    (hin : 8 * ioff + 8 * ((ilen + 7) / 8) ≤ inp.length) (hout : olen ≤ buf.length) {ops : List Op} {o : List Byte} {R : List Bool}
    (hx : Expands ops o) (hs : ∀ op ∈ ops, op.isShort = false)
    (hb : bytesBits ((inp.drop (8 * ioff)).take (8 * (ilen / 8))) = ops.flatMap Op.bits ++ R) (ho : olen < o.length) :
    (∃ b, oclCore e (some inp) ioff ilen buf olen = .ret (some .ENOSPC) 0 b) ∨ oclCore e (some inp) ioff ilen buf olen = .ub := by
  obtain ⟨p0, h0, hinv, ho0, hr0⟩ := oclInit_ok e (some inp) ioff ilen buf olen hin
  obtain ⟨G, hG⟩ : ∃ G, oclG e (some inp) ioff ilen buf olen hin = G := ⟨_, rfl⟩
  rw [hG] at hinv ho0 hr0
  have hGb : G.bytes = (inp.drop (8 * ioff)).take (8 * (ilen / 8)) := by rw [← hG]; rfl
  have hGe : G.e = e := by rw [← hG]; rfl
  have hGi : G.ilen = ilen := by rw [← hG]; rfl
  have hGs : G.src = some inp := by rw [← hG]; rfl
  have hGc : G.cap = olen := by rw [← hG]; simp only [oclG]; omega
  rw [← hGb] at hb
  have htot : (bytesBits G.bytes).length = 64 * (ilen / 8) := by rw [length_bytesBits, G.length_bytes, hGi]; omega
  have hlen := length_flatMap_bits ops
  have hbl := congrArg List.length hb
  rw [htot, List.length_append] at hbl
  have hl := (oclIter_ok G).loop_over (fun p' => .inl (by rw [hGs]; simp)) hx.1 hs hinv (R := R) (by rw [hr0, hb]) (o := o)
    (by rw [ho0]; exact hx.2) (by show G.cap < _; omega) (fuel := 8 * ilen + 1) (by omega)
  rw [hGe] at hl
  unfold oclCore
  rw [h0]
  simp only
  unfold oclBody
  rcases hl with ⟨p', hl⟩ | hl
  · exact .inl ⟨p'.buf, by rw [M.bind_err hl]⟩
  · exact .inr (by rw [M.bind_def, hl])

end Codes

/-- The first op without room -/
theorem run_first {ops : List Op} {d0 d : List Byte} {k : Nat} (hrun : Run d0 ops d) (h0 : d0.length ≤ k) (hd : k < d.length) :
    ∃ pre op post d1 d2, ops = pre ++ op :: post ∧ Run d0 pre d1 ∧ d1.length ≤ k ∧ OpStep d1 op d2 ∧ k < d2.length := by
  induction ops generalizing d0 with
  | nil => cases hrun; omega
  | cons op ops ih =>
    cases hrun with
    | @cons _ _ o1 _ _ h1 h2 =>
      by_cases hk : o1.length ≤ k
      · obtain ⟨pre, op', post, d1, d2, h3, h4, h5⟩ := ih h2 hk
        exact ⟨op :: pre, op', post, d1, d2, by rw [h3]; rfl, .cons h1 h4, h5⟩
      · exact ⟨[], op, ops, d0, o1, rfl, .nil, h0, h1, by omega⟩

theorem longerThan_overflows {w : List Byte} {k : Nat} (h : LongerThan w k) : Overflows w k := by
  obtain ⟨ops, d, R, hx, hs, hk, hb⟩ := h
  obtain ⟨pre, op, post, d1, d2, rfl, hrun, h1, hst, h2⟩ := run_first hx.2 (Nat.zero_le _) hk
  have hv := hx.1 op (by simp)
  have hsh := hs op (by simp)
  have hexp : Expands pre d1 := ⟨fun o ho => hx.1 o (by simp [ho]), hrun⟩
  have hpre : ∀ o ∈ pre, o.isShort = false := fun o ho => hs o (by simp [ho])
  have hb' : bytesBits w = pre.flatMap Op.bits ++ (bitsOf 5 (opCode op) ++ (opTail op ++ (post.flatMap Op.bits ++ R))) := by
    rw [hb, List.flatMap_append, List.flatMap_cons, op_bits_eq]
    simp only [List.append_assoc]
  rcases opStep_by hv hsh hst with ⟨hc, hl⟩ | ⟨r, hr, rfl, hne, hl⟩
  · exact ⟨pre, d1, _, hexp, hpre, h1, .inl ⟨_, hc, by omega, hb'⟩⟩
  · exact ⟨pre, d1, _, hexp, hpre, h1, .inr ⟨r, hr, hne, by omega, hb'⟩⟩

end Lib842
