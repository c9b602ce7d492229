import Verif.Proofs.OpCode
import Verif.Proofs.RefComp
import Verif.Proofs.DecLoop
import Verif.Proofs.OptDecomp
/-!
# Decoder loops with a fixed capacity

One obligation per decoder (`Dec.Step`: what one iteration does, including why it fails);
the loop theorems follow.  `Fut` is the part of the invariant that a decoder working in
place can lose; `Keep` is a condition on the new state under which it is kept.
-/

namespace Lib842
open Spec

/-- View of a decoder state with output capacity `cap`. -/
structure Dec (σ : Type) where
  WInv : σ → Prop
  Fut : σ → Prop
  Keep : σ → Prop
  rest : σ → List Bool
  outp : σ → List Byte
  cap : Nat
  /-- condition under which an iteration may be undefined -/
  U : σ → Prop
  /-- what holds in the state an error is reported in -/
  E : σ → Prop

variable {σ : Type}

namespace Dec

def Inv (D : Dec σ) (p : σ) : Prop := D.WInv p ∧ D.Fut p

/-- The next bits are neither the end marker nor an op whose output fits. -/
def Stuck (D : Dec σ) (p : σ) : Prop :=
  (∀ R, D.rest p ≠ bitsOf 5 0x1e ++ R) ∧
  ∀ op R o, op.Valid → op.isShort = false → D.rest p = op.bits ++ R → OpStep (D.outp p) op o →
    D.cap < o.length

/-- What one iteration does. -/
inductive Step (D : Dec σ) (p : σ) : Outcome σ Bool → Prop
  | fin {p' : σ} : D.WInv p' → D.Fut p' → D.outp p' = D.outp p →
      D.rest p = bitsOf 5 0x1e ++ D.rest p' → Step D p (.ok true p')
  | op {p' : σ} {op : Op} : D.WInv p' → (D.Keep p' → D.Fut p') → op.Valid → op.isShort = false →
      D.rest p = op.bits ++ D.rest p' → OpStep (D.outp p) op (D.outp p') → Step D p (.ok false p')
  | full {p' : σ} {op : Op} {o : List Byte} {R : List Bool} : op.Valid → op.isShort = false →
      D.rest p = op.bits ++ R → OpStep (D.outp p) op o → D.cap < o.length →
      D.E p' → Step D p (.err .ENOSPC p')
  | bad {p' : σ} : (∀ R, D.rest p ≠ bitsOf 5 0x1e ++ R) →
      (∀ op R o, op.Valid → op.isShort = false → D.rest p = op.bits ++ R →
        ¬ OpStep (D.outp p) op o) → D.E p' → Step D p (.err .EINVAL p')
  | ub : D.U p → D.Stuck p → Step D p .ub

/-- An iteration behaves like that in every state, and the output never exceeds the
capacity. -/
structure Ok (D : Dec σ) (it : M σ Bool) : Prop where
  fits : ∀ p, D.WInv p → (D.outp p).length ≤ D.cap
  step : ∀ p, D.Inv p → D.Step p (it p)

theorem end_ne_op {op : Op} (hv : op.Valid) {R S : List Bool} (h : bitsOf 5 0x1e ++ R = op.bits ++ S) :
    False := by
  rw [op_bits_eq, List.append_assoc] at h
  obtain ⟨h1, -⟩ := List.append_inj h (by simp)
  have := bitsOf_inj h1 (by omega) (opCode_lt hv).1
  exact (opCode_lt hv).2 this.symm

/-- A stream that decodes to data that fit is decoded. -/
theorem Ok.loop_fit {D : Dec σ} {it : M σ Bool} (h : D.Ok it) {ops : List Op}
    (hval : ∀ op ∈ ops, op.Valid) (hsh : ∀ op ∈ ops, op.isShort = false) {p : σ} (hp : D.Inv p)
    {R : List Bool} (hR : D.rest p = ops.flatMap Op.bits ++ (bitsOf 5 0x1e ++ R)) {data : List Byte}
    (hrun : Run (D.outp p) ops data) (hcap : data.length ≤ D.cap)
    (hK : ∀ p' pre post o, ops = pre ++ post → pre ≠ [] → Run (D.outp p) pre o → D.WInv p' → D.outp p' = o →
      D.rest p' = post.flatMap Op.bits ++ (bitsOf 5 0x1e ++ R) → D.Keep p')
    {fuel : Nat} (hf : ops.length < fuel) :
    ∃ p', M.doWhile it fuel p = .ok () p' ∧ D.Inv p' ∧ D.outp p' = data ∧ D.rest p' = R := by
  induction ops generalizing p fuel with
  | nil =>
    cases hrun
    obtain ⟨fuel, rfl⟩ : ∃ f, fuel = f + 1 := ⟨fuel - 1, by simp at hf; omega⟩
    rw [M.doWhile]
    have hs := h.step p hp
    simp only [List.flatMap_nil, List.nil_append] at hR
    generalize hx : it p = x at hs
    cases hs with
    | @fin p' hw hfu ho hr =>
      rw [M.bind_ok hx, if_pos rfl]
      rw [hR] at hr
      exact ⟨p', rfl, ⟨hw, hfu⟩, ho, (List.append_cancel_left hr).symm⟩
    | op _ _ hv _ hr _ => rw [hR] at hr; exact (end_ne_op hv hr).elim
    | full hv _ hr _ _ _ => rw [hR] at hr; exact (end_ne_op hv hr).elim
    | bad hne _ _ => exact absurd hR (hne R)
    | ub _ hst => exact absurd hR (hst.1 R)
  | cons op ops ih =>
    obtain ⟨fuel, rfl⟩ : ∃ f, fuel = f + 1 := ⟨fuel - 1, by simp at hf; omega⟩
    have hval' : ∀ op ∈ ops, op.Valid := fun o ho => hval o (List.mem_cons_of_mem _ ho)
    have hsh' : ∀ op ∈ ops, op.isShort = false := fun o ho => hsh o (List.mem_cons_of_mem _ ho)
    have hv0 := hval op (List.mem_cons_self ..)
    have hs0 := hsh op (List.mem_cons_self ..)
    cases hrun with
    | @cons _ _ o1 _ _ h1 h2 =>
      have hle := h2.length_le
      rw [List.flatMap_cons, List.append_assoc] at hR
      rw [M.doWhile]
      have hs := h.step p hp
      generalize hx : it p = x at hs
      cases hs with
      | fin _ _ _ hr => rw [hR] at hr; exact (end_ne_op hv0 hr.symm).elim
      | @op p' op' hw hfu hv _ hr hst =>
        rw [hR] at hr
        obtain ⟨rfl, hr'⟩ := op_bits_inj hv0 hv hr
        have ho : D.outp p' = o1 := OpStep.det hv0 hst h1
        rw [M.bind_ok hx, if_neg (by decide)]
        have hk : D.Keep p' := hK p' [op] ops o1 rfl (by simp) (.cons h1 .nil) hw ho hr'.symm
        refine ih hval' hsh' ⟨hw, hfu hk⟩ hr'.symm (by rw [ho]; exact h2) ?_
          (by simp only [List.length_cons] at hf; omega)
        intro q pre post o he hne hrun hwq hoq hrq
        exact hK q (op :: pre) post o (by rw [he]; rfl) (by simp) (.cons h1 (by rw [← ho]; exact hrun)) hwq hoq hrq
      | full hv _ hr hst hfull _ =>
        rw [hR] at hr
        obtain ⟨rfl, hr⟩ := op_bits_inj hv0 hv hr
        have := OpStep.det hv0 hst h1
        subst this
        omega
      | bad _ hno _ => exact absurd h1 (hno op _ o1 hv0 hs0 hR)
      | ub _ hst => have := hst.2 op _ o1 hv0 hs0 hR h1; omega

/-- What the loop does. -/
inductive LoopRes (D : Dec σ) (p : σ) : Outcome σ Unit → Prop
  | ok {p' : σ} {ops : List Op} : D.Inv p' → (∀ op ∈ ops, op.Valid) → (∀ op ∈ ops, op.isShort = false) →
      D.rest p = ops.flatMap Op.bits ++ (bitsOf 5 0x1e ++ D.rest p') →
      Run (D.outp p) ops (D.outp p') → LoopRes D p (.ok () p')
  | full {p' : σ} {ops : List Op} {o : List Byte} {R : List Bool} : (∀ op ∈ ops, op.Valid) →
      (∀ op ∈ ops, op.isShort = false) → D.rest p = ops.flatMap Op.bits ++ R →
      Run (D.outp p) ops o → D.cap < o.length → D.E p' → LoopRes D p (.err .ENOSPC p')
  | bad {p' : σ} : (∀ ops R o, (∀ op ∈ ops, op.Valid) → (∀ op ∈ ops, op.isShort = false) →
      D.rest p = ops.flatMap Op.bits ++ (bitsOf 5 0x1e ++ R) → ¬ Run (D.outp p) ops o) →
      D.E p' → LoopRes D p (.err .EINVAL p')
  | ub {p' : σ} : D.Inv p' → D.U p' → LoopRes D p .ub

theorem Ok.loop_res {D : Dec σ} {it : M σ Bool} (h : D.Ok it) (hK : ∀ p', D.Keep p') (fuel : Nat) {p : σ}
    (hp : D.Inv p) (hf : (D.rest p).length < 5 * fuel) : D.LoopRes p (M.doWhile it fuel p) := by
  induction fuel generalizing p with
  | zero => omega
  | succ fuel ih =>
    rw [M.doWhile]
    have hs := h.step p hp
    generalize hx : it p = x at hs
    cases hs with
    | @fin p' hw hfu ho hr =>
      rw [M.bind_ok hx, if_pos rfl]
      refine .ok (ops := []) ⟨hw, hfu⟩ (by simp) (by simp) hr ?_
      rw [ho]; exact .nil
    | @op p1 op hw hfu hv hsh hr hst =>
      rw [M.bind_ok hx, if_neg (by decide)]
      have hlen : (D.rest p).length = op.bits.length + (D.rest p1).length := by rw [hr]; simp
      have := five_le_bits op
      have hres := ih ⟨hw, hfu (hK _)⟩ (by omega)
      generalize M.doWhile it fuel p1 = y at hres
      cases hres with
      | @ok p2 ops hi2 hv2 hs2 hr2 hrun =>
        exact .ok (ops := op :: ops) hi2 (forall_cons hv hv2) (forall_cons hsh hs2)
          (by rw [hr, hr2]; simp) (.cons hst hrun)
      | @full p2 ops o R hv2 hs2 hr2 hrun hfull hE =>
        exact .full (ops := op :: ops) (R := R) (forall_cons hv hv2) (forall_cons hsh hs2)
          (by rw [hr, hr2]; simp) (.cons hst hrun) hfull hE
      | bad hno hE =>
        refine .bad (fun ops R o hv2 hs2 hr2 hrun => ?_) hE
        rw [hr] at hr2
        cases ops with
        | nil => exact (end_ne_op hv hr2.symm).elim
        | cons op2 ops =>
          cases hrun with
          | cons h1 h2 =>
            rw [List.flatMap_cons, List.append_assoc] at hr2
            obtain ⟨rfl, hr3⟩ := op_bits_inj hv (hv2 _ (List.mem_cons_self ..)) hr2
            rw [← OpStep.det hv hst h1] at h2
            exact hno ops R o (fun x hx => hv2 x (List.mem_cons_of_mem _ hx))
              (fun x hx => hs2 x (List.mem_cons_of_mem _ hx)) hr3 h2
      | ub hi hu => exact .ub hi hu
    | @full p' op o R hv hsh hr hst hfull hE =>
      rw [M.bind_err hx]
      exact .full (ops := [op]) (by simpa using hv) (by simpa using hsh) (by simpa using hr)
        (.cons hst .nil) hfull hE
    | bad hne hno hE =>
      rw [M.bind_err hx]
      refine .bad (fun ops R o hv2 hs2 hr2 hrun => ?_) hE
      cases ops with
      | nil => exact hne R hr2
      | cons op2 ops =>
        cases hrun with
        | cons h1 h2 =>
          rw [List.flatMap_cons, List.append_assoc] at hr2
          exact hno op2 _ _ (hv2 _ (List.mem_cons_self ..)) (hs2 _ (List.mem_cons_self ..)) hr2 h1
    | ub hu hst =>
      rw [M.bind_def, hx]
      exact .ub hp hu

/-- The iteration fails on op code `v` because no op with that code can be executed. -/
theorem Step.bad_of {D : Dec σ} {p p' : σ} {v : Nat} {R1 : List Bool} (hr : D.rest p = bitsOf 5 v ++ R1)
    (hv : v < 32) (hne : v ≠ 0x1e) (hE : D.E p')
    (h : ∀ op R o, op.Valid → op.isShort = false → opCode op = v → R1 = opTail op ++ R →
      ¬ OpStep (D.outp p) op o) : D.Step p (.err .EINVAL p') := by
  refine .bad (fun R he => ?_) (fun op R o hval hsh he => ?_) hE
  · rw [hr] at he
    obtain ⟨h1, -⟩ := List.append_inj he (by simp)
    exact hne (bitsOf_inj h1 hv (by omega))
  · rw [hr, op_bits_eq, List.append_assoc] at he
    obtain ⟨h1, h2⟩ := List.append_inj he (by simp)
    exact h op R o hval hsh (bitsOf_inj h1 hv (opCode_lt hval).1).symm h2

/-- The iteration is undefined on an op whose output does not fit. -/
theorem Step.ub_of {D : Dec σ} {p : σ} {op : Op} {R : List Bool} (hv : op.Valid)
    (hr : D.rest p = op.bits ++ R) (hU : D.U p) {o : List Byte} (hst : OpStep (D.outp p) op o)
    (hcap : D.cap < o.length) : D.Step p .ub := by
  refine .ub hU ⟨fun R' he => ?_, fun op' R' o' hval _ he hst' => ?_⟩
  · rw [hr] at he; exact end_ne_op hv he.symm
  · rw [hr] at he
    obtain ⟨rfl, -⟩ := op_bits_inj hv hval he
    rwa [← OpStep.det hv hst hst']

theorem Step.bad_short {D : Dec σ} {p p' : σ} (hr : (D.rest p).length < 5) (hE : D.E p') :
    D.Step p (.err .EINVAL p') := by
  refine .bad (fun R he => ?_) (fun op R o hval hsh he => ?_) hE
  · rw [he] at hr; simp at hr
  · have := five_le_bits op
    rw [he] at hr; simp at hr; omega

end Dec

/-! ## Assembling an output word -/

theorem bitsVal_append (l m : List Bool) : bitsVal (l ++ m) = bitsVal l * 2 ^ m.length + bitsVal m := by
  induction m using List.reverseRecOn with
  | nil => simp [bitsVal]
  | append_singleton m b ih =>
    rw [← List.append_assoc, bitsVal_append_singleton, ih, bitsVal_append_singleton, List.length_append,
      List.length_singleton, Nat.pow_succ, ← Nat.mul_assoc]
    omega

/-- `ow` holds the bytes `bs` in its most significant bytes, zeros below. -/
def Acc (ow : BitVec 64) (bs : List Byte) : Prop :=
  bs.length ≤ 8 ∧ ow.toNat = bitsVal (bytesBits bs) * 2 ^ (64 - 8 * bs.length)

theorem Acc.nil : Acc 0#64 [] := ⟨by simp, by simp [bitsVal]⟩

theorem Acc.step {ow v : BitVec 64} {bs new : List Byte} (h : Acc ow bs)
    (hl : bs.length + new.length ≤ 8) (hn : new ≠ []) (hv : v.toNat = bitsVal (bytesBits new)) :
    Acc (ow ||| v <<< (64 - 8 * new.length - 8 * bs.length)) (bs ++ new) := by
  obtain ⟨h1, h2⟩ := h
  refine ⟨by simpa using hl, ?_⟩
  have hlt := bitsVal_lt (bytesBits new)
  have hlt2 := bitsVal_lt (bytesBits bs)
  rw [length_bytesBits] at hlt hlt2
  have hn1 : 1 ≤ new.length := List.length_pos_iff.2 hn
  rw [bytesBits_append, bitsVal_append, length_bytesBits, List.length_append, BitVec.toNat_or, h2,
    BitVec.toNat_shiftLeft, hv]
  generalize bitsVal (bytesBits bs) = A at *
  generalize bitsVal (bytesBits new) = V at *
  generalize bs.length = a at *
  generalize new.length = b at *
  obtain ⟨r, hr⟩ : ∃ r, 64 - 8 * b - 8 * a = r := ⟨_, rfl⟩
  rw [hr, show 64 - 8 * (a + b) = r by omega, show 64 - 8 * a = 8 * b + r by omega]
  have hmod : V <<< r % 2 ^ 64 = V * 2 ^ r := by
    rw [Nat.shiftLeft_eq, Nat.mod_eq_of_lt]
    calc V * 2 ^ r < 2 ^ (8 * b) * 2 ^ r := Nat.mul_lt_mul_of_pos_right hlt (Nat.two_pow_pos _)
      _ = 2 ^ (8 * b + r) := by rw [Nat.pow_add]
      _ ≤ 2 ^ 64 := Nat.pow_le_pow_right (by omega) (by omega)
  rw [hmod, Nat.pow_add, ← Nat.mul_assoc]
  have := Nat.shiftLeft_or_distrib (a := A * 2 ^ (8 * b)) (b := V) (i := r)
  rw [Nat.shiftLeft_eq, Nat.shiftLeft_eq, Nat.shiftLeft_eq] at this
  rw [← this, Nat.mul_comm A, Nat.two_pow_add_eq_or_of_lt hlt]

theorem Acc.zero {ow : BitVec 64} {bs : List Byte} (h : Acc ow bs) (k : Nat) :
    Acc (ow ||| 0#64 <<< k) bs := by
  simpa using h

/-- A complete word is stored in stream order. -/
theorem Acc.bytes {ow : BitVec 64} {bs : List Byte} (h : Acc ow bs) (hl : bs.length = 8) (e : Endian) :
    wordBytes64 e (swapBe64 e ow) = bs := by
  rw [wordBytes64_swap]
  apply bytesBits_inj
  rw [bytesBits_wordBytes64, h.2, hl, Nat.sub_self, Nat.pow_zero, Nat.mul_one]
  have := bitsOf_bitsVal (bytesBits bs)
  rwa [length_bytesBits, hl] at this

/-- Every op except short data appends at least 8 bytes. -/
theorem opStep_grow {out o : List Byte} {op : Op} (hv : op.Valid) (hs : op.isShort = false)
    (h : OpStep out op o) : out.length + 8 ≤ o.length := by
  cases h with
  | @template code args _ hrun =>
    have := ArgsRun.length_eq hrun
    have h8 : actionsSize (args.map Arg.action) = 8 := (templates_ok code _ hv.1).2.2.1
    omega
  | rep h8 => simp [Nat.add_mul]; omega
  | zeros => simp
  | short => cases hs

end Lib842
