import Verif.Proofs.NewWords
import Verif.Proofs.SwDecomp
/-!
# How much a stream can expand
-/

namespace Lib842
open Spec

/-- Output of one op: a repeat op (11 bits) appends at most 512 bytes, every other op at most 8. -/
theorem op_expand {out out' : List Byte} {op : Op} (hv : op.Valid) (h : OpStep out op out') :
    11 * out'.length ≤ 11 * out.length + 512 * op.bits.length ∧ (out.length < 8 → out'.length ≤ out.length + 8) := by
  have h5 := five_le_bits op
  cases h with
  | @template code args _ hr =>
    obtain ⟨-, -, hsum, -⟩ := templates_ok code _ hv.1
    have hl := Lib842.ArgsRun.length_sum hr
    rw [hsum] at hl
    exact ⟨by omega, fun _ => by omega⟩
  | @rep n h8 =>
    have hn : n < 64 := hv
    have hb : (Op.rep n).bits.length = 11 := by simp [Op.bits]
    have hl : (out.drop (out.length - 8)).length = 8 := by simp; omega
    have hfl := length_repl hl (n := n + 1)
    rw [List.length_append, hfl, hb]
    exact ⟨by omega, fun h => by omega⟩
  | zeros => rw [List.length_append, List.length_replicate]; exact ⟨by omega, fun _ => le_refl _⟩
  | @short bs =>
    have hb : bs.length ≤ 7 := hv.2
    rw [List.length_append]
    exact ⟨by omega, fun _ => by omega⟩

theorem run_expand {out out' : List Byte} {ops : List Op} (hv : ∀ op ∈ ops, op.Valid) (h : Run out ops out') :
    11 * out'.length ≤ 11 * out.length + 512 * (ops.flatMap Op.bits).length := by
  induction h with
  | nil => omega
  | cons h1 _ ih =>
    have h2 := (op_expand (hv _ (List.mem_cons_self ..)) h1).1
    have h3 := ih fun op ho => hv op (List.mem_cons_of_mem _ ho)
    rw [List.flatMap_cons, List.length_append]
    omega

theorem expands_expand {x : List Byte} {ops : List Op} (h : Expands ops x) :
    x = [] ∨ 11 * x.length + 2472 ≤ 512 * (ops.flatMap Op.bits).length := by
  obtain ⟨hv, hr⟩ := h
  cases hr with
  | nil => exact .inl rfl
  | @cons _ op o1 ops _ h1 h2 =>
    right
    have h3 := (op_expand (hv _ (List.mem_cons_self ..)) h1).2 (by simp)
    have h4 := run_expand (fun op ho => hv op (List.mem_cons_of_mem _ ho)) h2
    have h5 := five_le_bits op
    rw [List.flatMap_cons, List.length_append]
    rw [List.length_nil] at h3
    omega

theorem decodes_expand {s x : List Byte} (h : Decodes s x) : x = [] ∨ 11 * x.length + 21416 ≤ 4096 * s.length := by
  obtain ⟨ops, rest, h1, h2⟩ := h
  have hl := congrArg List.length h2
  rw [length_bytesBits, List.length_append, List.length_append] at hl
  have ht : (trailer x).length = 37 := by simp [trailer]
  rcases expands_expand h1 with h | h
  · exact .inl h
  · right; omega

/-- Bit strings of whole bytes -/
theorem exists_bytes (n : Nat) (l : List Bool) (h : l.length = 8 * n) : ∃ s : List Byte, bytesBits s = l ∧ s.length = n := by
  induction n generalizing l with
  | zero => exact ⟨[], (List.length_eq_zero_iff.1 (by omega)).symm, rfl⟩
  | succ n ih =>
    obtain ⟨s, h1, h2⟩ := ih (l.drop 8) (by rw [List.length_drop]; omega)
    have h8 : (l.take 8).length = 8 := by rw [List.length_take]; omega
    refine ⟨BitVec.ofNat 8 (bitsVal (l.take 8)) :: s, ?_, by simp [h2]⟩
    have hv : bitsVal (l.take 8) < 2 ^ 8 := by
      have := bitsVal_lt (l.take 8)
      rwa [h8] at this
    have hb := bitsOf_bitsVal (l.take 8)
    rw [h8] at hb
    have : bytesBits (BitVec.ofNat 8 (bitsVal (l.take 8)) :: s) = bitsOf 8 (bitsVal (l.take 8)) ++ bytesBits s := by
      simp only [bytesBits, List.flatMap_cons, BitVec.toNat_ofNat, Nat.mod_eq_of_lt hv]
    rw [this, hb, h1, List.take_append_drop]

theorem zeros_run (k n : Nat) (hn : 8 ≤ n) :
    Run (List.replicate n 0#8) (List.replicate k (.rep 63)) (List.replicate (n + 512 * k) 0#8) := by
  induction k generalizing n with
  | zero => exact .nil
  | succ k ih =>
    have h1 : OpStep (List.replicate n 0#8) (.rep 63) (List.replicate (n + 512) 0#8) := by
      have := OpStep.rep (out := List.replicate n 0#8) (n := 63) (by rwa [List.length_replicate])
      rwa [List.length_replicate, List.drop_replicate, List.flatten_replicate_replicate, List.replicate_append_replicate,
        show n - (n - 8) = 8 by omega] at this
    have h2 := ih (n + 512) (by omega)
    rw [show n + 512 + 512 * k = n + 512 * (k + 1) by omega] at h2
    rw [List.replicate_succ]
    exact .cons h1 h2

/-- A zeros op followed by `k` longest repeat ops -/
theorem bomb_expands (k : Nat) : Expands (.zeros :: List.replicate k (.rep 63)) (List.replicate (8 + 512 * k) 0#8) ∧
    ((Op.zeros :: List.replicate k (.rep 63)).flatMap Op.bits).length = 5 + 11 * k ∧
    ∀ op ∈ Op.zeros :: List.replicate k (.rep 63), op.isShort = false := by
  refine ⟨⟨fun op h => ?_, .cons .zeros (zeros_run k 8 (le_refl _))⟩, ?_, fun op h => ?_⟩
  · rcases List.mem_cons.1 h with rfl | h
    · trivial
    · rw [List.eq_of_mem_replicate h]; show 63 < 64; omega
  · rw [List.flatMap_cons, List.length_append]
    have : ∀ k, ((List.replicate k (Op.rep 63)).flatMap Op.bits).length = 11 * k := by
      intro k
      induction k with
      | zero => rfl
      | succ k ih => rw [List.replicate_succ, List.flatMap_cons, List.length_append, ih]; simp [Op.bits]; omega
    rw [this]
    simp [Op.bits]
  · rcases List.mem_cons.1 h with rfl | h
    · rfl
    · rw [List.eq_of_mem_replicate h]; rfl

theorem bomb (m : Nat) : ∃ s : List Byte, s.length = 8 * (1 + 11 * m) ∧ HwDecodes s (List.replicate (1032 + 32768 * m) 0#8) := by
  obtain ⟨h1, h2, h3⟩ := bomb_expands (2 + 64 * m)
  rw [show 8 + 512 * (2 + 64 * m) = 1032 + 32768 * m by omega] at h1
  obtain ⟨s, h4, h5⟩ := exists_bytes (8 * (1 + 11 * m)) ((Op.zeros :: List.replicate (2 + 64 * m) (.rep 63)).flatMap Op.bits ++
    trailer (List.replicate (1032 + 32768 * m) 0#8)) (by
      rw [List.length_append, h2]; simp only [trailer, List.length_append, length_bitsOf]; omega)
  exact ⟨s, h5, _, [], h1, h3, by rw [h4, List.append_nil]⟩

end Lib842
