import Verif.Proofs.NoRoom
import Verif.Proofs.Prefix
import Verif.Proofs.Torn
/-!
# Streams and `Overflows`
-/

namespace Lib842
open Spec

theorem opStep_by {a b : List Byte} {op : Op} (hv : op.Valid) (hs : op.isShort = false) (h : OpStep a op b) :
    ((opCode op < 26 ∨ opCode op = 0x1c) ∧ b.length = a.length + 8) ∨
    ∃ r, r < 64 ∧ op = .rep r ∧ a ≠ [] ∧ b.length = a.length + 8 * (r + 1) := by
  cases h with
  | @template code args _ hrun =>
    have h1 := ArgsRun.length_eq hrun
    have h8 : actionsSize (args.map Arg.action) = 8 := (templates_ok code _ hv.1).2.2.1
    obtain ⟨hlt, -⟩ := List.getElem?_eq_some_iff.1 hv.1
    exact .inl ⟨.inl hlt, by omega⟩
  | @rep n h8 =>
    have h8' : a.length - (a.length - 8) = 8 := by omega
    refine .inr ⟨n, hv, rfl, ?_, ?_⟩
    · rintro rfl; simp at h8
    · simp [h8']; omega
  | zeros => exact .inl ⟨.inr rfl, by simp⟩
  | short => exact absurd hs (by simp [Op.isShort])

theorem ops_codes {ops ops' : List Op} {R R' : List Bool} (hv : ∀ op ∈ ops, op.Valid) (hv' : ∀ op ∈ ops', op.Valid) {o : Nat} (ho : o < 0x1e)
    (h : ops.flatMap Op.bits ++ (bitsOf 5 0x1e ++ R) = ops'.flatMap Op.bits ++ (bitsOf 5 o ++ R')) :
    ∃ op post S, ops = ops' ++ op :: post ∧ opCode op = o ∧ opTail op ++ S = R' := by
  induction ops' generalizing ops with
  | nil =>
    cases ops with
    | nil =>
      rw [List.flatMap_nil, List.nil_append, List.nil_append] at h
      obtain ⟨h1, -⟩ := List.append_inj h (by simp)
      have := bitsOf_inj h1 (by omega) (by omega)
      omega
    | cons op ops =>
      rw [List.flatMap_cons, op_bits_eq, List.append_assoc, List.append_assoc, List.flatMap_nil, List.nil_append] at h
      obtain ⟨h1, h2⟩ := List.append_inj h (by simp)
      exact ⟨op, ops, _, rfl, bitsOf_inj h1 (opCode_lt (hv _ List.mem_cons_self)).1 (by omega), h2⟩
  | cons op' ops' ih =>
    cases ops with
    | nil =>
      rw [List.flatMap_cons, op_bits_eq, List.append_assoc, List.append_assoc, List.flatMap_nil, List.nil_append] at h
      obtain ⟨h1, -⟩ := List.append_inj h (by simp)
      exact absurd (bitsOf_inj h1 (by omega) (opCode_lt (hv' _ List.mem_cons_self)).1).symm (opCode_lt (hv' _ List.mem_cons_self)).2
    | cons op ops =>
      simp only [List.flatMap_cons, List.append_assoc] at h
      obtain ⟨rfl, h2⟩ := op_bits_inj (hv _ List.mem_cons_self) (hv' _ List.mem_cons_self) h
      obtain ⟨op1, post, S, rfl, h4, h5⟩ := ih (fun a ha => hv a (List.mem_cons_of_mem _ ha)) (fun a ha => hv' a (List.mem_cons_of_mem _ ha)) h2
      exact ⟨op1, post, S, rfl, h4, h5⟩

theorem run_len_le {a b : List Byte} {ops : List Op} (h : Run a ops b) : a.length ≤ b.length := by
  induction h with
  | nil => exact Nat.le_refl _
  | cons h1 _ ih =>
    refine Nat.le_trans ?_ ih
    cases h1 with
    | template hr => have := ArgsRun.length_eq hr; omega
    | rep => simp
    | zeros => simp
    | short => simp

/-- What begins like a stream for `x` does not ask for more room than `x` needs. -/
theorem not_overflows {w : List Byte} {x : List Byte} {ops : List Op} {R S : List Bool} (hx : Expands ops x)
    (hb : bytesBits w ++ S = ops.flatMap Op.bits ++ trailer x ++ R) {k : Nat} (hk : x.length ≤ k) : ¬ Overflows w k := by
  rintro ⟨ops', d, rest, hx', hs', hd, hcase⟩
  unfold trailer at hb
  simp only [List.append_assoc] at hb
  have key : ∀ o R', o < 0x1e → o ≠ 0x1d → bytesBits w = ops'.flatMap Op.bits ++ (bitsOf 5 o ++ R') →
      ∃ op T, opCode op = o ∧ op.Valid ∧ opTail op ++ T = R' ++ S ∧ ∃ b, OpStep d op b ∧ b.length ≤ x.length := by
    intro o R' ho ho' hw
    rw [hw] at hb
    simp only [List.append_assoc] at hb
    obtain ⟨op, post, T, rfl, h1, h2⟩ := ops_codes hx.1 hx'.1 ho hb.symm
    obtain ⟨b, h3, h4⟩ := run_split hx.2
    obtain rfl := run_det hx'.2 h3
    cases h4 with
    | cons h5 h6 => exact ⟨op, T, h1, hx.1 op (by simp), h2, _, h5, run_len_le h6⟩
  rcases hcase with ⟨o, ho, hlt, hw⟩ | ⟨r, hr, hne, hlt, hw⟩
  · obtain ⟨op, T, h1, h2, -, b, h4, h5⟩ := key o rest (by omega) (by omega) hw
    have hs : op.isShort = false := by
      cases op <;> first | rfl | (simp [opCode] at h1; omega)
    rcases opStep_by h2 hs h4 with ⟨-, h6⟩ | ⟨r, -, rfl, -, -⟩
    · omega
    · simp [opCode] at h1; omega
  · obtain ⟨op, T, h1, h2, h3, b, h4, h5⟩ := key 0x1b _ (by omega) (by omega) hw
    have hs : op.isShort = false := by
      cases op <;> first | rfl | (simp [opCode] at h1)
    rcases opStep_by h2 hs h4 with ⟨h6, -⟩ | ⟨r', hr', rfl, -, h6⟩
    · omega
    · simp only [opTail, List.append_assoc] at h3
      obtain ⟨h7, -⟩ := List.append_inj h3 (by simp)
      have := bitsOf_inj h7 (by omega) (by omega)
      omega

theorem run_cross {a d : List Byte} {ops : List Op} (h : Run a ops d) {k : Nat} (ha : a.length ≤ k) (hk : k < d.length) :
    ∃ pre op post b b', ops = pre ++ op :: post ∧ Run a pre b ∧ OpStep b op b' ∧ b.length ≤ k ∧ k < b'.length := by
  induction h with
  | nil => omega
  | @cons out op out' ops out'' h1 _ ih =>
    by_cases hc : out'.length ≤ k
    · obtain ⟨pre, op1, post, b, b', rfl, h2, h3, h4, h5⟩ := ih hc hk
      exact ⟨op :: pre, op1, post, b, b', rfl, .cons h1 h2, h3, h4, h5⟩
    · exact ⟨[], op, ops, out, out', rfl, .nil, h1, ha, by omega⟩

/-- Valid ops for more than `k` bytes -/
theorem overflows_of {w d : List Byte} {ops : List Op} {R : List Bool} (hx : Expands ops d) (hs : ∀ op ∈ ops, op.isShort = false)
    (hw : bytesBits w = ops.flatMap Op.bits ++ R) {k : Nat} (hk : k < d.length) : Overflows w k := by
  obtain ⟨pre, op, post, b, b', rfl, h2, h3, h4, h5⟩ := run_cross hx.2 (by simp) hk
  have hv := hx.1 op (by simp)
  have hs' := hs op (by simp)
  rw [List.flatMap_append, List.flatMap_cons, op_bits_eq] at hw
  simp only [List.append_assoc] at hw
  have hxp : Expands pre b := ⟨fun o ho => hx.1 o (by simp [ho]), h2⟩
  have hsp : ∀ o ∈ pre, o.isShort = false := fun o ho => hs o (by simp [ho])
  rcases opStep_by hv hs' h3 with ⟨h6, h7⟩ | ⟨r, hr, rfl, hne, h7⟩
  · exact ⟨pre, b, _, hxp, hsp, h4, .inl ⟨opCode op, h6, by omega, hw⟩⟩
  · exact ⟨pre, b, _, hxp, hsp, h4, .inr ⟨r, hr, hne, by omega, hw⟩⟩

theorem overflows_mono {w : List Byte} {k k' : Nat} (h : Overflows w k) (hk : k' ≤ k) : Overflows w k' := by
  obtain ⟨ops, d, rest, hx, hs, hd, hcase⟩ := h
  by_cases hc : d.length ≤ k'
  · refine ⟨ops, d, rest, hx, hs, hc, ?_⟩
    rcases hcase with ⟨o, ho, hlt, hw⟩ | ⟨r, hr, hne, hlt, hw⟩
    · exact .inl ⟨o, ho, by omega, hw⟩
    · exact .inr ⟨r, hr, hne, by omega, hw⟩
  · rcases hcase with ⟨o, ho, hlt, hw⟩ | ⟨r, hr, hne, hlt, hw⟩
    · exact overflows_of hx hs hw (by omega)
    · exact overflows_of hx hs hw (by omega)

end Lib842
