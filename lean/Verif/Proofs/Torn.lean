import Verif.Proofs.OpCode
import Verif.Proofs.SwCall
import Verif.Proofs.DecStep
/-!
# Streams that break off, or go on with zeros or ones

`P` is the part of a stream that is left.  Behind it there are `m` bits `v`.
-/

namespace Lib842
open Spec

/-- Bits other than `v` are in the part that is left. -/
theorem torn_pos {P A B : List Bool} {m i : Nat} {v : Bool} (h : P ++ List.replicate m v = A ++ B) (hi : B[i]? = some !v) :
    A.length + i < P.length := by
  by_contra hn
  have h1 : (A ++ B)[A.length + i]? = some !v := by rw [List.getElem?_append_right (by omega)]; simpa using hi
  rw [← h, List.getElem?_append_right (by omega), List.getElem?_replicate] at h1
  split at h1
  · cases v <;> cases h1
  · cases h1

/-- What is left begins with `A` and with the bits of `B` up to a bit other than `v`. -/
theorem torn_prefix {P A B : List Bool} {m i : Nat} {v : Bool} (h : P ++ List.replicate m v = A ++ B) (hi : B[i]? = some !v) :
    ∃ S, P = A ++ (B.take (i + 1) ++ S) := by
  have hp := torn_pos h hi
  have hil : i < B.length := by
    rcases Nat.lt_or_ge i B.length with h | h
    · exact h
    · rw [List.getElem?_eq_none h] at hi; cases hi
  refine ⟨P.drop (A.length + (i + 1)), ?_⟩
  have h1 : P.take (A.length + (i + 1)) = A ++ B.take (i + 1) := by
    have := congrArg (List.take (A.length + (i + 1))) h
    rw [List.take_append_of_le_length (by omega)] at this
    rw [this, List.take_append, List.take_of_length_le (by omega)]
    congr 2
    omega
  rw [← List.append_assoc, ← h1, List.take_append_drop]

/-- Ops at the beginning of a stream are ops of the stream. -/
theorem ops_bits_split {ops ops' : List Op} {Y S : List Bool} (hv : ∀ op ∈ ops, op.Valid) (hv' : ∀ op ∈ ops', op.Valid)
    (h : ops.flatMap Op.bits ++ (bitsOf 5 0x1e ++ Y) = ops'.flatMap Op.bits ++ S) :
    ∃ more, ops = ops' ++ more ∧ more.flatMap Op.bits ++ (bitsOf 5 0x1e ++ Y) = S := by
  induction ops' generalizing ops with
  | nil => exact ⟨ops, rfl, h⟩
  | cons op' ops' ih =>
    cases ops with
    | nil =>
      exfalso
      have hv1 := hv' _ (List.mem_cons_self ..)
      simp only [List.flatMap_nil, List.nil_append] at h
      rw [List.flatMap_cons, op_bits_eq, List.append_assoc, List.append_assoc] at h
      obtain ⟨h1, -⟩ := List.append_inj h (by simp)
      obtain ⟨h2, h3⟩ := opCode_lt hv1
      exact h3 (bitsOf_inj h1 (by decide) h2).symm
    | cons op ops =>
      simp only [List.flatMap_cons, List.append_assoc] at h
      obtain ⟨rfl, h2⟩ := op_bits_inj (hv _ (List.mem_cons_self ..)) (hv' _ (List.mem_cons_self ..)) h
      obtain ⟨more, h3, h4⟩ := ih (fun a ha => hv a (List.mem_cons_of_mem _ ha)) (fun a ha => hv' a (List.mem_cons_of_mem _ ha)) h2
      exact ⟨more, by rw [h3, List.cons_append], h4⟩

/-- Op codes are less than 0x1e. -/
theorem opCode_lt_end {op : Op} (h : op.Valid) : opCode op < 0x1e := by
  cases op with
  | template code args =>
    have := List.getElem?_eq_some_iff.1 h.1
    obtain ⟨h, -⟩ := this
    have : templates.length = 26 := rfl
    show code < 30
    omega
  | rep n => simp [opCode]
  | zeros => simp [opCode]
  | short bs => simp [opCode]

/-- If what is left, with the bits behind it, has an end, it has the ops of the stream. -/
theorem torn_ops {ops ops' : List Op} {P T Y Y' : List Bool} {m : Nat} {v : Bool} (hv : ∀ op ∈ ops, op.Valid)
    (hv' : ∀ op ∈ ops', op.Valid) (h : P ++ T = ops.flatMap Op.bits ++ (bitsOf 5 0x1e ++ Y))
    (h' : P ++ List.replicate m v = ops'.flatMap Op.bits ++ (bitsOf 5 0x1e ++ Y')) : ops = ops' := by
  have hS : ∃ S, P = ops'.flatMap Op.bits ++ ([true, true, true, true] ++ S) := by
    cases v with
    | false =>
      obtain ⟨S, hS⟩ := torn_prefix h' (i := 3) (by rw [List.getElem?_append_left (by simp)]; decide)
      rw [List.take_append_of_le_length (by simp)] at hS
      exact ⟨S, hS⟩
    | true =>
      obtain ⟨S, hS⟩ := torn_prefix h' (i := 4) (by rw [List.getElem?_append_left (by simp)]; decide)
      rw [List.take_append_of_le_length (by simp)] at hS
      exact ⟨false :: S, hS⟩
  obtain ⟨S, hS⟩ := hS
  rw [hS, List.append_assoc] at h
  obtain ⟨more, hm, hb⟩ := ops_bits_split hv hv' h.symm
  cases more with
  | nil => rw [hm, List.append_nil]
  | cons op more =>
    exfalso
    have hvo : op.Valid := hv op (by rw [hm]; simp)
    rw [List.flatMap_cons, op_bits_eq, List.append_assoc, List.append_assoc] at hb
    have h4 := congrArg (List.take 4) hb
    have hlt := opCode_lt_end hvo
    generalize opCode op = c at h4 hlt
    rw [List.take_append_of_le_length (by simp)] at h4
    replace h4 : (bitsOf 5 c).take 4 = [true, true, true, true] := h4
    revert h4
    revert hlt
    revert c
    decide

/-- If what is left, with the bits behind it, has a repeat op, there is another op in its place in the stream. -/
theorem torn_rep {ops ops' : List Op} {P T Y R : List Bool} {m n : Nat} {v : Bool} (hv : ∀ op ∈ ops, op.Valid)
    (hv' : ∀ op ∈ ops', op.Valid) (h : P ++ T = ops.flatMap Op.bits ++ (bitsOf 5 0x1e ++ Y))
    (h' : P ++ List.replicate m v = ops'.flatMap Op.bits ++ ((Op.rep n).bits ++ R)) :
    ∃ op more, ops = ops' ++ op :: more := by
  have hS : ∃ S, P = ops'.flatMap Op.bits ++ ([true, true, false] ++ S) := by
    rw [Op.bits, List.append_assoc] at h'
    cases v with
    | false =>
      obtain ⟨S, hS⟩ := torn_prefix h' (i := 4) (by rw [List.getElem?_append_left (by simp)]; decide)
      rw [List.take_append_of_le_length (by simp)] at hS
      exact ⟨[true, true] ++ S, hS⟩
    | true =>
      obtain ⟨S, hS⟩ := torn_prefix h' (i := 2) (by rw [List.getElem?_append_left (by simp)]; decide)
      rw [List.take_append_of_le_length (by simp)] at hS
      exact ⟨S, hS⟩
  obtain ⟨S, hS⟩ := hS
  rw [hS, List.append_assoc] at h
  obtain ⟨more, hm, hb⟩ := ops_bits_split hv hv' h.symm
  cases more with
  | nil =>
    exfalso
    rw [List.flatMap_nil, List.nil_append] at hb
    have h3 := congrArg (List.take 3) hb
    rw [List.take_append_of_le_length (by simp)] at h3
    have : (bitsOf 5 0x1e).take 3 = [true, true, false] := h3
    revert this
    decide
  | cons op more => exact ⟨op, more, hm⟩

/-- Without short data, whole groups -/
theorem run_mod8 {a b : List Byte} {ops : List Op} (hv : ∀ op ∈ ops, op.Valid) (hs : ∀ op ∈ ops, op.isShort = false)
    (h : Run a ops b) : b.length % 8 = a.length % 8 := by
  induction h with
  | nil => rfl
  | @cons out op out' ops out'' h1 _ ih =>
    rw [ih (fun o ho => hv o (List.mem_cons_of_mem _ ho)) (fun o ho => hs o (List.mem_cons_of_mem _ ho))]
    cases h1 with
    | @template code args _ hrun =>
      have := ArgsRun.length_eq hrun
      have h8 : actionsSize (args.map Arg.action) = 8 := (templates_ok code _ (hv _ List.mem_cons_self).1).2.2.1
      omega
    | @rep n h8 =>
      have h8' : out.length - (out.length - 8) = 8 := by omega
      simp [h8', Nat.add_mul]
      omega
    | zeros => simp
    | short => exact absurd (hs _ List.mem_cons_self) (by simp [Op.isShort])

theorem bytesBits_ones (m : Nat) : bytesBits (List.replicate m 0xff#8) = List.replicate (8 * m) true := by
  induction m with
  | zero => rfl
  | succ m ih =>
    rw [List.replicate_succ, show (0xff#8 :: List.replicate m 0xff#8) = [0xff#8] ++ List.replicate m 0xff#8 from rfl,
      bytesBits_append, ih, show bytesBits [0xff#8] = List.replicate 8 true by decide, List.replicate_append_replicate]
    congr 1
    omega

theorem bytesBits_zeros (m : Nat) : bytesBits (List.replicate m 0#8) = List.replicate (8 * m) false := by
  induction m with
  | zero => rfl
  | succ m ih =>
    rw [List.replicate_succ, show (0#8 :: List.replicate m 0#8) = [0#8] ++ List.replicate m 0#8 from rfl, bytesBits_append, ih,
      show bytesBits [0#8] = List.replicate 8 false by decide, List.replicate_append_replicate]
    congr 1
    omega

theorem ringRef_det {len size i o o' : Nat} (h : RingRef len size i o) (h' : RingRef len size i o') : o = o' := by
  obtain ⟨a1, a2, a3⟩ := h
  obtain ⟨b1, b2, b3⟩ := h'
  have hr : ringSize size = size * 2 ^ indexBits size := rfl
  rcases Nat.eq_zero_or_pos size with rfl | hs
  · rw [Nat.zero_mul] at hr
    rw [hr, Nat.mod_zero] at a1 b1
    omega
  · have key : ∀ {a b : Nat}, a % ringSize size = b % ringSize size → a ≤ b → b < a + ringSize size → a = b := by
      intro a b h1 h2 h3
      have := Nat.sub_mod_eq_zero_of_mod_eq h1.symm
      rw [Nat.mod_eq_of_lt (by omega)] at this
      omega
    rcases Nat.le_total o o' with h | h
    · exact key (a1.trans b1.symm) h (by omega)
    · exact (key (b1.trans a1.symm) h (by omega)).symm

theorem argStep_det {a b b' : List Byte} {g : Arg} (h : ArgStep a g b) (h' : ArgStep a g b') : b = b' := by
  cases h with
  | data => cases h'; rfl
  | index h1 =>
    cases h' with
    | index h2 => rw [ringRef_det h1 h2]

theorem argsRun_det {a b b' : List Byte} {as : List Arg} (h : ArgsRun a as b) (h' : ArgsRun a as b') : b = b' := by
  induction h with
  | nil => cases h'; rfl
  | cons h1 _ ih =>
    cases h' with
    | cons g1 g2 => exact ih (by rw [argStep_det h1 g1]; exact g2)

theorem opStep_det {a b b' : List Byte} {op : Op} (h : OpStep a op b) (h' : OpStep a op b') : b = b' := by
  cases h with
  | template h1 =>
    cases h' with
    | template h2 => exact argsRun_det h1 h2
  | rep => cases h'; rfl
  | zeros => cases h'; rfl
  | short => cases h'; rfl

theorem run_det {a b b' : List Byte} {ops : List Op} (h : Run a ops b) (h' : Run a ops b') : b = b' := by
  induction h with
  | nil => cases h'; rfl
  | cons h1 _ ih =>
    cases h' with
    | cons g1 g2 => exact ih (by rw [opStep_det h1 g1]; exact g2)

/-- Ops expand to at most one byte string. -/
theorem expands_det {ops : List Op} {d d' : List Byte} (h : Expands ops d) (h' : Expands ops d') : d = d' := run_det h.2 h'.2

/-- What is left of a stream, and bytes 0x00 or 0xff behind it -/
theorem bytesBits_torn {c : List Byte} {k m : Nat} {f : Byte} (hf : f = 0x00 ∨ f = 0xff) :
    ∃ P T v, bytesBits c = P ++ T ∧ bytesBits (c.take k ++ List.replicate m f) = P ++ List.replicate (8 * m) v ∧
      P.length = 8 * (c.take k).length := by
  refine ⟨bytesBits (c.take k), bytesBits (c.drop k), if f = 0 then false else true, ?_, ?_, length_bytesBits _⟩
  · rw [← bytesBits_append, List.take_append_drop]
  · rw [bytesBits_append]
    rcases hf with rfl | rfl
    · rw [if_pos rfl, ← bytesBits_zeros]; rfl
    · rw [if_neg (by decide), ← bytesBits_ones]; rfl

end Lib842
