import Verif.Proofs.SwDecomp
/-!
# Decoder loops

The main loop shared by the word-oriented decoders, for any state in which the unread
input bits and the output produced so far can be identified.
-/

namespace Lib842
open Spec

/-- View of a decoder state. -/
structure DecView (σ : Type) where
  Inv : σ → Prop
  rest : σ → List Bool
  outp : σ → List Byte
  buf : σ → List Byte

variable {σ : Type}

/-- What one iteration can do. -/
inductive DecView.IterRes (V : DecView σ) (p : σ) : Outcome σ Bool → Prop
  | fin {p' : σ} : V.Inv p' → V.buf p' = V.buf p → V.outp p' = V.outp p →
      V.rest p = bitsOf 5 0x1e ++ V.rest p' → IterRes V p (.ok true p')
  | op {p' : σ} {op : Op} : V.Inv p' → (V.buf p').length = (V.buf p).length → op.Valid →
      op.isShort = false → V.rest p = op.bits ++ V.rest p' → OpStep (V.outp p) op (V.outp p') →
      IterRes V p (.ok false p')
  | err {er : Errno} {p' : σ} : (V.buf p').length = (V.buf p).length → IterRes V p (.err er p')

/-- One iteration of a decoder is sound and complete. -/
structure DecView.Ok (V : DecView σ) (it : M σ Bool) : Prop where
  fits : ∀ p, V.Inv p → (V.outp p).length ≤ (V.buf p).length
  sound : ∀ p, V.Inv p → V.IterRes p (it p)
  fin : ∀ p, V.Inv p → ∀ R, V.rest p = bitsOf 5 0x1e ++ R →
    ∃ p', it p = .ok true p' ∧ V.Inv p' ∧ V.buf p' = V.buf p ∧ V.outp p' = V.outp p ∧ V.rest p' = R
  op : ∀ p, V.Inv p → ∀ op R o, op.Valid → op.isShort = false → V.rest p = op.bits ++ R →
    OpStep (V.outp p) op o →
    (o.length ≤ (V.buf p).length ∧ ∃ p', it p = .ok false p' ∧ V.Inv p' ∧
      (V.buf p').length = (V.buf p).length ∧ V.outp p' = o ∧ V.rest p' = R) ∨
    ((V.buf p).length < o.length ∧ ∃ p', it p = .err .ENOSPC p')

/-- What the loop can do. -/
inductive DecView.LoopRes (V : DecView σ) (p : σ) : Outcome σ Unit → Prop
  | ok {p' : σ} {ops : List Op} : V.Inv p' → (V.buf p').length = (V.buf p).length →
      (∀ op ∈ ops, op.Valid) → (∀ op ∈ ops, op.isShort = false) →
      V.rest p = ops.flatMap Op.bits ++ (bitsOf 5 0x1e ++ V.rest p') →
      Run (V.outp p) ops (V.outp p') → LoopRes V p (.ok () p')
  | err {er : Errno} {p' : σ} : (V.buf p').length = (V.buf p).length → LoopRes V p (.err er p')

theorem forall_cons {α : Type} {P : α → Prop} {a : α} {l : List α} (ha : P a) (hl : ∀ x ∈ l, P x) :
    ∀ x ∈ a :: l, P x := by
  intro x hx
  rcases List.mem_cons.1 hx with rfl | h
  · exact ha
  · exact hl x h

theorem DecView.Ok.loop_res {V : DecView σ} {it : M σ Bool} (h : V.Ok it) (fuel : Nat) {p : σ}
    (hp : V.Inv p) (hf : (V.rest p).length < 5 * fuel) : V.LoopRes p (M.doWhile it fuel p) := by
  induction fuel generalizing p with
  | zero => omega
  | succ fuel ih =>
    rw [M.doWhile]
    have hs := h.sound p hp
    generalize hx : it p = x at hs
    cases hs with
    | @fin p' hi hb ho hr =>
      rw [M.bind_ok hx, if_pos rfl]
      refine .ok (ops := []) hi (by rw [hb]) (by simp) (by simp) hr ?_
      rw [ho]; exact .nil
    | @op p1 op hi hb hv hsh hr hst =>
      rw [M.bind_ok hx, if_neg (by decide)]
      have hlen : (V.rest p).length = op.bits.length + (V.rest p1).length := by rw [hr]; simp
      have := five_le_bits op
      have hres := ih hi (by omega)
      generalize M.doWhile it fuel p1 = y at hres
      cases hres with
      | @ok p2 ops hi2 hb2 hv2 hs2 hr2 hrun =>
        exact .ok (ops := op :: ops) hi2 (hb2.trans hb) (forall_cons hv hv2) (forall_cons hsh hs2)
          (by rw [hr, hr2]; simp) (.cons hst hrun)
      | err hb2 => exact .err (hb2.trans hb)
    | err hb => rw [M.bind_err hx]; exact .err hb

theorem DecView.Ok.loop_run {V : DecView σ} {it : M σ Bool} (h : V.Ok it) (ops : List Op)
    (hval : ∀ op ∈ ops, op.Valid) (hsh : ∀ op ∈ ops, op.isShort = false) {p : σ}
    (hp : V.Inv p) {R : List Bool} (hR : V.rest p = ops.flatMap Op.bits ++ R) {o : List Byte}
    (hrun : Run (V.outp p) ops o) :
    (o.length ≤ (V.buf p).length ∧ ∃ p', V.Inv p' ∧ (V.buf p').length = (V.buf p).length ∧
      V.rest p' = R ∧ V.outp p' = o ∧
      ∀ f, M.doWhile it (f + ops.length) p = M.doWhile it f p') ∨
    ((V.buf p).length < o.length ∧
      ∃ p', ∀ f, M.doWhile it (f + ops.length) p = .err .ENOSPC p') := by
  induction ops generalizing p with
  | nil =>
    cases hrun
    exact .inl ⟨h.fits p hp, p, hp, rfl, by simpa using hR, rfl, fun f => rfl⟩
  | cons op ops ih =>
    have hval' : ∀ op ∈ ops, op.Valid := fun o ho => hval o (List.mem_cons_of_mem _ ho)
    have hsh' : ∀ op ∈ ops, op.isShort = false := fun o ho => hsh o (List.mem_cons_of_mem _ ho)
    cases hrun with
    | @cons _ _ o1 _ _ h1 h2 =>
      rw [List.flatMap_cons, List.append_assoc] at hR
      rcases h.op p hp op _ o1 (hval op (List.mem_cons_self ..)) (hsh op (List.mem_cons_self ..)) hR h1 with
        ⟨hfit, p1, hx, hi1, hb1, ho1, hr1⟩ | ⟨hfull, p1, hx⟩
      · have hstep : ∀ f, M.doWhile it (f + (op :: ops).length) p = M.doWhile it (f + ops.length) p1 := by
          intro f
          rw [List.length_cons, ← Nat.add_assoc, M.doWhile, M.bind_ok hx, if_neg (by decide)]
        rw [← ho1] at h2
        rcases ih hval' hsh' hi1 hr1 h2 with ⟨hc2, p3, hi3, hl3, hr3, ho3, hf⟩ | ⟨hc2, p3, hf⟩
        · exact .inl ⟨by omega, p3, hi3, hl3.trans hb1, hr3, ho3, fun f => by rw [hstep, hf]⟩
        · exact .inr ⟨by omega, p3, fun f => by rw [hstep, hf]⟩
      · have := h2.length_le
        refine .inr ⟨by omega, p1, fun f => ?_⟩
        rw [List.length_cons, ← Nat.add_assoc, M.doWhile, M.bind_err hx]

theorem DecView.Ok.loop_of {V : DecView σ} {it : M σ Bool} (h : V.Ok it) {fuel : Nat} (ops : List Op)
    (hval : ∀ op ∈ ops, op.Valid) (hsh : ∀ op ∈ ops, op.isShort = false) {p : σ} (hp : V.Inv p)
    {R : List Bool} (hR : V.rest p = ops.flatMap Op.bits ++ (bitsOf 5 0x1e ++ R))
    (hf : (V.rest p).length < 5 * fuel) {o : List Byte} (hrun : Run (V.outp p) ops o) :
    (o.length ≤ (V.buf p).length ∧ ∃ p', M.doWhile it fuel p = .ok () p' ∧ V.Inv p' ∧
      (V.buf p').length = (V.buf p).length ∧ V.outp p' = o ∧ V.rest p' = R) ∨
    ((V.buf p).length < o.length ∧ ∃ p', M.doWhile it fuel p = .err .ENOSPC p') := by
  have hlen := length_flatMap_bits ops
  have hl : (V.rest p).length = (ops.flatMap Op.bits).length + (5 + R.length) := by rw [hR]; simp
  obtain ⟨f, rfl⟩ : ∃ f, fuel = (f + 1) + ops.length := ⟨fuel - ops.length - 1, by omega⟩
  rcases h.loop_run ops hval hsh hp hR hrun with ⟨hc, p1, hi1, hl1, hr1, ho1, hf1⟩ | ⟨hc, p1, hf1⟩
  · rw [hf1, M.doWhile]
    obtain ⟨p2, hx, hi2, hb2, ho2, hr2⟩ := h.fin p1 hi1 R hr1
    rw [M.bind_ok hx, if_pos rfl]
    exact .inl ⟨hc, p2, rfl, hi2, by rw [hb2, hl1], by rw [ho2, ho1], hr2⟩
  · exact .inr ⟨hc, p1, hf1 _⟩

theorem doWhile_mono (it : M σ Bool) (fuel : Nat) (p : σ) (h : M.doWhile it fuel p ≠ .timeout) :
    M.doWhile it (fuel + 1) p = M.doWhile it fuel p := by
  induction fuel generalizing p with
  | zero => exact absurd rfl h
  | succ fuel ih =>
    rw [M.doWhile, M.doWhile, M.bind_def, M.bind_def]
    rw [M.doWhile, M.bind_def] at h
    cases hx : it p with
    | ok b p1 =>
      rw [hx] at h
      cases b with
      | true => rfl
      | false => exact ih p1 h
    | _ => rfl

end Lib842
