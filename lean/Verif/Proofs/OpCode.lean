import Verif.Proofs.SwDecomp
/-!
# The ops of the format form a prefix code
-/

namespace Lib842
open Spec

theorem arg_bits_inj {a a' : Arg} {R R' : List Bool} (hact : a.action = a'.action) (hv : a.Valid) (hv' : a'.Valid)
    (h : a.bits ++ R = a'.bits ++ R') : a = a' ∧ R = R' := by
  cases a with
  | data bs =>
    cases a' with
    | data bs' =>
      simp only [Arg.action, Action.D.injEq] at hact
      have hl : (bytesBits bs).length = (bytesBits bs').length := by rw [length_bytesBits, length_bytesBits, hact]
      obtain ⟨h1, h2⟩ := List.append_inj h hl
      exact ⟨by rw [bytesBits_inj h1], h2⟩
    | index s i => simp [Arg.action] at hact
  | index s i =>
    cases a' with
    | data bs' => simp [Arg.action] at hact
    | index s' i' =>
      simp only [Arg.action, Action.I.injEq] at hact
      subst hact
      obtain ⟨h1, h2⟩ := List.append_inj h (by simp [Arg.bits])
      exact ⟨by rw [bitsOf_inj h1 hv hv'], h2⟩

theorem argList_bits_inj {as as' : List Arg} {R R' : List Bool} (hact : as.map Arg.action = as'.map Arg.action)
    (hv : ∀ a ∈ as, a.Valid) (hv' : ∀ a ∈ as', a.Valid)
    (h : as.flatMap Arg.bits ++ R = as'.flatMap Arg.bits ++ R') : as = as' ∧ R = R' := by
  induction as generalizing as' with
  | nil =>
    cases as' with
    | nil => exact ⟨rfl, h⟩
    | cons a as => simp at hact
  | cons a as ih =>
    cases as' with
    | nil => simp at hact
    | cons a' as' =>
      simp only [List.map_cons, List.cons.injEq] at hact
      simp only [List.flatMap_cons, List.append_assoc] at h
      obtain ⟨h1, h2⟩ := arg_bits_inj hact.1 (hv _ (List.mem_cons_self ..)) (hv' _ (List.mem_cons_self ..)) h
      obtain ⟨h3, h4⟩ := ih hact.2 (fun a ha => hv a (List.mem_cons_of_mem _ ha))
        (fun a ha => hv' a (List.mem_cons_of_mem _ ha)) h2
      exact ⟨by rw [h1, h3], h4⟩

theorem op_bits_inj {op op' : Op} {R R' : List Bool} (hv : op.Valid) (hv' : op'.Valid)
    (h : op.bits ++ R = op'.bits ++ R') : op = op' ∧ R = R' := by
  rw [op_bits_eq, op_bits_eq, List.append_assoc, List.append_assoc] at h
  obtain ⟨h1, h2⟩ := List.append_inj h (by simp)
  have hcode := bitsOf_inj h1 (opCode_lt hv).1 (opCode_lt hv').1
  have ht : ∀ {c args}, (Op.template c args).Valid → c < 26 := by
    intro c args hv
    have := List.getElem?_eq_some_iff.1 hv.1
    obtain ⟨h, -⟩ := this
    exact h
  cases op with
  | template c args =>
    have hc := ht hv
    cases op' with
    | template c' args' =>
      obtain rfl : c = c' := hcode
      have hact : args.map Arg.action = args'.map Arg.action := by
        have h1 := hv.1
        rw [hv'.1] at h1
        exact (Option.some.inj h1).symm
      obtain ⟨rfl, h4⟩ := argList_bits_inj hact hv.2 hv'.2 h2
      exact ⟨rfl, h4⟩
    | rep n => simp only [opCode] at hcode; omega
    | zeros => simp only [opCode] at hcode; omega
    | short bs => simp only [opCode] at hcode; omega
  | rep n =>
    cases op' with
    | template c' args' => have hc := ht hv'; simp only [opCode] at hcode; omega
    | rep n' =>
      obtain ⟨h3, h4⟩ := List.append_inj h2 (by simp [opTail])
      exact ⟨by rw [bitsOf_inj h3 hv hv'], h4⟩
    | zeros => simp [opCode] at hcode
    | short bs => simp [opCode] at hcode
  | zeros =>
    cases op' with
    | template c' args' => have hc := ht hv'; simp only [opCode] at hcode; omega
    | rep n' => simp [opCode] at hcode
    | zeros => exact ⟨rfl, h2⟩
    | short bs => simp [opCode] at hcode
  | short bs =>
    cases op' with
    | template c' args' => have hc := ht hv'; simp only [opCode] at hcode; omega
    | rep n' => simp [opCode] at hcode
    | zeros => simp [opCode] at hcode
    | short bs' =>
      simp only [opTail, List.append_assoc] at h2
      obtain ⟨h3, h4⟩ := List.append_inj h2 (by simp)
      have h1 := hv.1
      have h1' := hv.2
      have h2' := hv'.2
      have hl := bitsOf_inj h3 (by omega) (by omega)
      obtain ⟨h5, h6⟩ := List.append_inj h4 (by rw [length_bytesBits, length_bytesBits, hl])
      exact ⟨by rw [bytesBits_inj h5], h6⟩

theorem ops_bits_inj {ops ops' : List Op} {R R' : List Bool} (hv : ∀ op ∈ ops, op.Valid)
    (hv' : ∀ op ∈ ops', op.Valid)
    (h : ops.flatMap Op.bits ++ (bitsOf 5 0x1e ++ R) = ops'.flatMap Op.bits ++ (bitsOf 5 0x1e ++ R')) :
    ops = ops' ∧ R = R' := by
  have hend : ∀ {op : Op} {ops : List Op} {R R' : List Bool}, op.Valid →
      (op :: ops).flatMap Op.bits ++ R = bitsOf 5 0x1e ++ R' → False := by
    intro op ops R R' hv h
    rw [List.flatMap_cons, op_bits_eq, List.append_assoc, List.append_assoc] at h
    obtain ⟨h1, -⟩ := List.append_inj h (by simp)
    obtain ⟨h2, h3⟩ := opCode_lt hv
    exact h3 (bitsOf_inj h1 h2 (by decide))
  induction ops generalizing ops' with
  | nil =>
    cases ops' with
    | nil => exact ⟨rfl, List.append_cancel_left h⟩
    | cons op' ops' => exact absurd h.symm fun h => hend (hv' _ (List.mem_cons_self ..)) h
  | cons op ops ih =>
    cases ops' with
    | nil => exact absurd h fun h => hend (hv _ (List.mem_cons_self ..)) h
    | cons op' ops' =>
      simp only [List.flatMap_cons, List.append_assoc] at h
      obtain ⟨rfl, h2⟩ := op_bits_inj (hv _ (List.mem_cons_self ..)) (hv' _ (List.mem_cons_self ..)) h
      obtain ⟨h3, h4⟩ := ih (fun a ha => hv a (List.mem_cons_of_mem _ ha))
        (fun a ha => hv' a (List.mem_cons_of_mem _ ha)) h2
      exact ⟨by rw [h3], h4⟩

/-- A bit stream has one reading. -/
theorem ops_unique {ops ops' : List Op} {d d' : List Byte} {R R' : List Bool} (h : Expands ops d)
    (h' : Expands ops' d')
    (he : ops.flatMap Op.bits ++ trailer d ++ R = ops'.flatMap Op.bits ++ trailer d' ++ R') :
    ops = ops' ∧ R = R' := by
  unfold trailer at he
  simp only [List.append_assoc] at he
  obtain ⟨h1, h2⟩ := ops_bits_inj h.1 h'.1 he
  exact ⟨h1, (List.append_inj h2 (by simp)).2⟩

end Lib842
