import Verif.Proofs.OclKernel
import Verif.Proofs.Expansion
import Verif.Proofs.OptCall
/-!
# When the output of a chunk cannot overtake its stream
-/

namespace Lib842
open Spec

/-- An op spends at most 69 bits on 8 bytes. -/
theorem op_most {out out' : List Byte} {op : Op} (hv : op.Valid) (hs : op.isShort = false) (h : OpStep out op out') :
    8 * op.bits.length + 69 * out.length ≤ 69 * out'.length ∧ out'.length % 8 = out.length % 8 := by
  cases h with
  | @template code args _ hr =>
    obtain ⟨-, -, hsum, h69⟩ := templates_ok code _ hv.1
    have hl := Lib842.ArgsRun.length_sum hr
    rw [hsum] at hl
    rw [template_bits_length]
    omega
  | @rep n h8 =>
    have hb : (Op.rep n).bits.length = 11 := by simp [Op.bits]
    have hl : (out.drop (out.length - 8)).length = 8 := by simp; omega
    have hfl := length_repl hl (n := n + 1)
    rw [List.length_append, hfl, hb]
    omega
  | zeros =>
    have hb : Op.zeros.bits.length = 5 := by simp [Op.bits]
    rw [List.length_append, List.length_replicate, hb]
    omega
  | short => cases hs

theorem run_most {out out' : List Byte} {ops : List Op} (hv : ∀ op ∈ ops, op.Valid) (hs : ∀ op ∈ ops, op.isShort = false)
    (h : Run out ops out') : 8 * (ops.flatMap Op.bits).length + 69 * out.length ≤ 69 * out'.length ∧
      out'.length % 8 = out.length % 8 := by
  induction h with
  | nil => simp
  | cons h1 _ ih =>
    obtain ⟨a1, a2⟩ := op_most (hv _ List.mem_cons_self) (hs _ List.mem_cons_self) h1
    obtain ⟨b1, b2⟩ := ih (fun o ho => hv o (List.mem_cons_of_mem _ ho)) (fun o ho => hs o (List.mem_cons_of_mem _ ho))
    rw [List.flatMap_cons, List.length_append]
    omega

theorem Run.unappend {a c : List Byte} {pre post : List Op} (h : Run a (pre ++ post) c) :
    ∃ b, Run a pre b ∧ Run b post c := by
  induction pre generalizing a with
  | nil => exact ⟨a, .nil, h⟩
  | cons op pre ih =>
    cases h with
    | cons h1 h2 =>
      obtain ⟨b, h3, h4⟩ := ih h2
      exact ⟨b, .cons h1 h3, h4⟩

/-- A stream without words to spare, of at most 616 bytes, is never overtaken. -/
theorem room_616 {x : List Byte} {ops : List Op} {n : Nat} (hx : Expands ops x) (hs : ∀ op ∈ ops, op.isShort = false)
    (hn : n = 8 * (((ops.flatMap Op.bits).length + 37 + 63) / 64)) (hle : n ≤ 616) (hc : n ≤ x.length) :
    RoomInPlace x.length n ops := by
  intro pre post o hp hr
  subst hp
  obtain ⟨hv, hrun⟩ := hx
  obtain ⟨o', h1, h2⟩ := Run.unappend hrun
  have hv1 : ∀ op ∈ pre, op.Valid := fun op ho => hv op (List.mem_append_left _ ho)
  obtain rfl : o = o' := Run.det hv1 hr h1
  obtain ⟨a1, a2⟩ := run_most (fun op ho => hv op (List.mem_append_right _ ho))
    (fun op ho => hs op (List.mem_append_right _ ho)) h2
  obtain ⟨b1, b2⟩ := run_most hv1 (fun op ho => hs op (List.mem_append_left _ ho)) h1
  have hw : o.length = 0 ∨ 5 ≤ (pre.flatMap Op.bits).length := by
    cases pre with
    | nil => cases h1; exact .inl rfl
    | cons op pre =>
      right
      have := five_le_bits op
      rw [List.flatMap_cons, List.length_append]
      omega
  rw [List.flatMap_append, List.length_append] at hn
  rw [List.length_nil] at b2
  omega

/-- The bits of the compressor's stream are those of ops followed by the trailer. -/
theorem optBits_ops {x : List Byte} (ain aout : Nat) (h8 : x.length % 8 = 0) :
    ∃ ops, Expands ops x ∧ (∀ op ∈ ops, op.isShort = false) ∧ optBits ain aout x = ops.flatMap Op.bits ++ trailer x := by
  unfold optBits
  split
  · refine ⟨refOps x, refOps_expands x, ?_, rfl⟩
    intro op hop
    unfold refOps shortOps at hop
    rw [if_pos h8, List.append_nil] at hop
    obtain ⟨o, ho⟩ := (refLoop_ok x).forall op hop
    exact ho.2.1
  · obtain ⟨h1, h2⟩ := orefOps_expands h8
    exact ⟨orefOps x, h1, h2, rfl⟩

end Lib842
