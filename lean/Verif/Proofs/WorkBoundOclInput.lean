import Verif.Proofs.WorkBoundOpt
import Verif.Proofs.Torn
import Verif.Proofs.DecStep
import Verif.SpecRoom
/-!
# Streams and the first words of them
-/

namespace Lib842
open Spec

namespace Work

theorem run_first {a b : List Byte} {ops : List Op} {k : Nat} (hv : ∀ op ∈ ops, op.Valid) (hs : ∀ op ∈ ops, op.isShort = false) (h : Run a ops b)
    (ha : a.length ≤ k) (hb : k < b.length) :
    ∃ ops1 ops2 c, ops = ops1 ++ ops2 ∧ Run a ops1 c ∧ k < c.length ∧ a.length + 8 * ops1.length ≤ k + 8 := by
  induction h with
  | nil => omega
  | @cons out op out' ops out'' h1 h2 ih =>
    have h8 := opStep_ge8 (hv op List.mem_cons_self) (hs op List.mem_cons_self) h1
    by_cases hk : k < out'.length
    · exact ⟨[op], ops, out', rfl, .cons h1 .nil, hk, by simp only [List.length_singleton]; omega⟩
    · obtain ⟨o1, o2, c, e1, e2, e3, e4⟩ := ih (fun o ho => hv o (List.mem_cons_of_mem _ ho)) (fun o ho => hs o (List.mem_cons_of_mem _ ho)) (by omega) hb
      exact ⟨op :: o1, o2, c, by rw [e1]; rfl, .cons h1 e2, e3, by simp only [List.length_cons]; omega⟩

theorem bits_cut {s : List Byte} {A R : List Bool} {K : Nat} (h : bytesBits s = A ++ R) (hA : A.length ≤ 8 * K) :
    bytesBits (s.take K) = A ++ R.take (8 * K - A.length) := by
  rw [bytesBits_take, h, List.take_append, List.take_of_length_le hA]

theorem bits_more {s : List Byte} {A R : List Bool} {K : Nat} (h : bytesBits (s.take K) = A ++ R) : ∃ R', bytesBits s = A ++ (R ++ R') := by
  refine ⟨bytesBits (s.drop K), ?_⟩
  rw [← List.append_assoc, ← h, ← bytesBits_append, List.take_append_drop]

theorem longer_cut {s : List Byte} {k K : Nat} (hK : 69 * (k / 8 + 1) ≤ 8 * K) : LongerThan (s.take K) k ↔ LongerThan s k := by
  constructor
  · rintro ⟨ops, d, R, h1, h2, h3, h4⟩
    obtain ⟨R', h5⟩ := bits_more h4
    exact ⟨ops, d, _, h1, h2, h3, h5⟩
  · rintro ⟨ops, d, R, h1, h2, h3, h4⟩
    obtain ⟨o1, o2, c, rfl, e2, e3, e4⟩ := run_first h1.1 h2 h1.2 (Nat.zero_le _) h3
    have hv : ∀ op ∈ o1, op.Valid := fun o h => h1.1 o (List.mem_append_left _ h)
    have hb := flatMap_le69 hv
    simp only [List.length_nil] at e4
    rw [List.flatMap_append, List.append_assoc] at h4
    exact ⟨o1, c, _, ⟨hv, e2⟩, fun o h => h2 o (List.mem_append_left _ h), e3, bits_cut h4 (by omega)⟩

/-- A stream for the OpenCL decoder, which does not look at the value of the checksum. -/
def AnyCrc (s d : List Byte) : Prop := ∃ ops crc rest, Expands ops d ∧ (∀ op ∈ ops, op.isShort = false) ∧
  bytesBits s = ops.flatMap Op.bits ++ (bitsOf 5 0x1e ++ (bitsOf 32 crc ++ rest))

theorem anyCrc_more {s d : List Byte} {K : Nat} (h : AnyCrc (s.take K) d) : AnyCrc s d := by
  obtain ⟨ops, c, R, h1, h2, h3⟩ := h
  obtain ⟨R', h4⟩ := bits_more h3
  exact ⟨ops, c, R ++ R', h1, h2, by rw [h4]; simp only [List.append_assoc]⟩

theorem anyCrc_cut {s d : List Byte} {k K : Nat} (hK : 69 * (k / 8 + 1) ≤ 8 * K) (hd : d.length ≤ k) (h : AnyCrc s d) : AnyCrc (s.take K) d := by
  obtain ⟨ops, c, R, h1, h2, h3⟩ := h
  have hb := flatMap_le69 h1.1
  have h8 := run_ge8 h1.1 h2 h1.2
  simp only [List.length_nil] at h8
  have h4 : bytesBits s = (ops.flatMap Op.bits ++ (bitsOf 5 0x1e ++ bitsOf 32 c)) ++ R := by rw [h3]; simp only [List.append_assoc]
  have h5 := bits_cut (K := K) h4 (by simp only [List.length_append, length_bitsOf]; omega)
  refine ⟨ops, c, R.take (8 * K - (ops.flatMap Op.bits ++ (bitsOf 5 0x1e ++ bitsOf 32 c)).length), h1, h2, ?_⟩
  rw [h5, List.append_assoc, List.append_assoc]

theorem anyCrc_unique {s d d' : List Byte} (h : AnyCrc s d) (h' : AnyCrc s d') : d = d' := by
  obtain ⟨ops, c, R, h1, h2, h3⟩ := h
  obtain ⟨ops', c', R', h1', h2', h3'⟩ := h'
  obtain ⟨rfl, -⟩ := ops_bits_inj h1.1 h1'.1 (h3.symm.trans h3')
  exact run_det h1.2 h1'.2

/-- Two readings of the same bits agree as far as both go. -/
theorem ops_prefix {ops ops' : List Op} {R R' : List Bool} (hv : ∀ op ∈ ops, op.Valid) (hv' : ∀ op ∈ ops', op.Valid)
    (h : ops.flatMap Op.bits ++ R = ops'.flatMap Op.bits ++ R') :
    (∃ t, ops' = ops ++ t) ∨ ∃ op t, ops = ops' ++ op :: t ∧ R' = op.bits ++ (t.flatMap Op.bits ++ R) := by
  induction ops generalizing ops' with
  | nil => exact .inl ⟨ops', rfl⟩
  | cons o ops ih =>
    cases ops' with
    | nil => exact .inr ⟨o, ops, rfl, by rw [← List.append_assoc, ← List.flatMap_cons]; exact h.symm⟩
    | cons o' ops' =>
      rw [List.flatMap_cons, List.flatMap_cons, List.append_assoc, List.append_assoc] at h
      obtain ⟨rfl, h1⟩ := op_bits_inj (hv o List.mem_cons_self) (hv' o' List.mem_cons_self) h
      rcases ih (fun a ha => hv a (List.mem_cons_of_mem _ ha)) (fun a ha => hv' a (List.mem_cons_of_mem _ ha)) h1 with ⟨t, rfl⟩ | ⟨op, t, rfl, h2⟩
      · exact .inl ⟨t, rfl⟩
      · exact .inr ⟨op, t, rfl, h2⟩

theorem run_rest {a b c : List Byte} {o1 o2 : List Op} (hv : ∀ op ∈ o1 ++ o2, op.Valid) (hs : ∀ op ∈ o1 ++ o2, op.isShort = false) (h1 : Run a o1 b)
    (h2 : Run a (o1 ++ o2) c) : b.length + 8 * o2.length ≤ c.length := by
  induction h1 with
  | nil => exact run_ge8 hv hs h2
  | @cons out op out' ops out'' h _ ih =>
    cases h2 with
    | cons h' h2 =>
      obtain rfl := opStep_det h h'
      exact ih (fun o ho => hv o (List.mem_cons_of_mem _ ho)) (fun o ho => hs o (List.mem_cons_of_mem _ ho)) h2

end Work

end Lib842
