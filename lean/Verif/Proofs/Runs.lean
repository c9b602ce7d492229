import Verif.Proofs.Minimal
import Verif.Proofs.OptDict
import Verif.Proofs.Prefix
/-!
# Sizes of compressed runs
-/

namespace Lib842.Runs
open Spec

/-- `m` times the group `g` -/
theorem flat_slice {g : List Byte} (hg : g.length = 8) {m i : Nat} (h : i < m) : slice (List.replicate m g).flatten (8 * i) 8 = g := by
  induction m generalizing i with
  | zero => omega
  | succ m ih =>
    rw [List.replicate_succ, List.flatten_cons]
    unfold slice
    cases i with
    | zero => rw [Nat.mul_zero, List.drop_zero, List.take_append_of_le_length (by omega), List.take_of_length_le (by omega)]
    | succ i =>
      rw [List.drop_append, List.drop_of_length_le (by omega), List.nil_append, hg, show 8 * (i + 1) - 8 = 8 * i by omega]
      exact ih (by omega)

theorem flat_length {g : List Byte} (hg : g.length = 8) (m : Nat) : (List.replicate m g).flatten.length = 8 * m := by
  simp [hg, Nat.mul_comm]

/-! ## The first op of a stream -/

theorem sizes_pos : ∀ acts ∈ templates, ∀ a ∈ acts, 0 < actionSize a := by decide

/-- Before the first group is complete there is nothing to refer to. -/
theorem args_first {out args out' : _} (h : ArgsRun out args out') (hl : out'.length ≤ 8) (hp : ∀ a ∈ args, 0 < actionSize a.action) :
    (args.flatMap Arg.bits).length + 8 * out.length = 8 * out'.length := by
  induction h with
  | nil => simp
  | @cons out a o1 as o2 h1 h2 ih =>
    have hle := ArgsRun.length_eq h2
    have i1 := ih hl fun a ha => hp a (List.mem_cons_of_mem _ ha)
    rw [List.flatMap_cons, List.length_append]
    cases h1 with
    | data =>
      rw [List.length_append] at i1
      simp only [Arg.bits, length_bytesBits]
      omega
    | @index size i o hr =>
      exfalso
      have h0 : 0 < size := hp _ (List.mem_cons_self ..)
      obtain ⟨-, r2, -⟩ := hr
      have : (List.take size (List.drop o out)).length = size := by rw [List.length_take, List.length_drop]; omega
      rw [List.length_append, this] at hle
      omega

theorem first_cost {op : Op} {g : List Byte} (hv : op.Valid) (hs : op.isShort = false) (hg : g.length = 8) (h : OpStep [] op g)
    (hz : g ≠ List.replicate 8 0#8) : op.bits.length = 69 := by
  cases h with
  | @template code args _ hrun =>
    have hm := List.mem_of_getElem? hv.1
    have := args_first hrun (by omega) fun a ha => sizes_pos _ hm _ (List.mem_map_of_mem ha)
    simp only [List.length_nil] at this
    simp only [Op.bits, List.length_append, length_bitsOf]
    omega
  | rep h => simp at h
  | zeros => exact absurd rfl hz
  | short => cases hs

/-! ## The loops -/

/-- Bits of the first group of a run -/
def headCost (g : List Byte) : Nat := if g = List.replicate 8 0#8 then 5 else 69

theorem rep_cost (rc : Nat) (h : rc ≤ 63) : ((repOps rc).flatMap Op.bits).length = 11 * ((rc + 63) / 64) := by
  unfold repOps
  by_cases h0 : rc = 0
  · subst h0; rfl
  · rw [if_neg h0, show (rc + 63) / 64 = 1 by omega]
    simp [Op.bits]

theorem sw_tail {x g : List Byte} {m : Nat} (hx : ∀ i < m, slice x (8 * i) 8 = g) (k : Nat) (T : Tab) (i rc : Nat) (hk : i + k ≤ m) (hrc : rc ≤ 63) :
    ((refLoop x k T (8 * i) (some g) rc).flatMap Op.bits).length = 11 * ((rc + k + 63) / 64) := by
  induction k generalizing T i rc with
  | zero => exact rep_cost rc hrc
  | succ k ih =>
    rw [refLoop]
    simp only [refStep, hx i (by omega), if_pos]
    by_cases h : rc + 1 ≤ 0x3f
    · rw [if_pos h]
      have := ih (T.next x (8 * i)) (i + 1) (rc + 1) (by omega) h
      rw [show 8 * (i + 1) = 8 * i + 8 by omega] at this
      rw [List.nil_append, this, show rc + 1 + k = rc + (k + 1) by omega]
    · rw [if_neg h]
      have := ih (T.next x (8 * i)) (i + 1) 0 (by omega) (by omega)
      rw [show 8 * (i + 1) = 8 * i + 8 by omega] at this
      rw [List.singleton_append, List.flatMap_cons, List.length_append, this]
      simp only [Op.bits, List.length_append, length_bitsOf]
      omega

theorem opt_tail {x g : List Byte} {m : Nat} (hx : ∀ i < m, slice x (8 * i) 8 = g) (k : Nat) (T : OTab) (i rc : Nat) (hk : i + k ≤ m) (hrc : rc ≤ 63) :
    ((orefLoop x k T (8 * i) (some g) rc).flatMap Op.bits).length = 11 * ((rc + k + 63) / 64) := by
  induction k generalizing T i rc with
  | zero => exact rep_cost rc hrc
  | succ k ih =>
    rw [orefLoop]
    simp only [orefStep, hx i (by omega), if_pos]
    by_cases h : rc + 1 ≤ 0x3f
    · rw [if_pos h]
      have := ih (T.next (8 * i)) (i + 1) (rc + 1) (by omega) h
      rw [show 8 * (i + 1) = 8 * i + 8 by omega] at this
      rw [List.nil_append, this, show rc + 1 + k = rc + (k + 1) by omega]
    · rw [if_neg h]
      have := ih (T.next (8 * i)) (i + 1) 0 (by omega) (by omega)
      rw [show 8 * (i + 1) = 8 * i + 8 by omega] at this
      rw [List.singleton_append, List.flatMap_cons, List.length_append, this]
      simp only [Op.bits, List.length_append, length_bitsOf]
      omega

theorem sw_bits {g : List Byte} (hg : g.length = 8) (k : Nat) :
    (streamBits (List.replicate (k + 1) g).flatten).length = headCost g + 11 * ((k + 63) / 64) + 37 := by
  have hl := flat_length hg (k + 1)
  have hx : ∀ i < k + 1, slice (List.replicate (k + 1) g).flatten (8 * i) 8 = g := fun i h => flat_slice hg h
  generalize (List.replicate (k + 1) g).flatten = x at hl hx
  have h0 : slice x 0 8 = g := hx 0 (by omega)
  have ht : (trailer x).length = 37 := by simp [trailer]
  unfold streamBits refOps shortOps
  rw [if_pos (by omega), List.append_nil, List.length_append, ht, hl, show 8 * (k + 1) / 8 = k + 1 by omega, refLoop]
  have htail := sw_tail hx k (Tab.init.next x 0) 1 0 (by omega) (by omega)
  rw [Nat.mul_one, Nat.zero_add] at htail
  simp only [refStep, h0, Nat.zero_add]
  rw [if_neg (by simp), List.flatMap_append, List.length_append, htail]
  unfold headCost
  by_cases hz : g = List.replicate 8 0#8
  · rw [if_pos hz, if_pos hz]; simp [repOps, Op.bits]
  · rw [if_neg hz, if_neg hz]
    obtain ⟨b1, b2, b3, -, -⟩ := (Tab.Rep.init x).blockOp (pos := 0) rfl (by omega)
    rw [List.take_zero, Nat.zero_add, show x.take 8 = g from h0] at b3
    have := first_cost b1 b2 hg b3 hz
    simp [repOps, this]

theorem opt_bits {g : List Byte} (hg : g.length = 8) (k : Nat) :
    (ostreamBits (List.replicate (k + 1) g).flatten).length = headCost g + 11 * ((k + 63) / 64) + 37 := by
  have hl := flat_length hg (k + 1)
  have hx : ∀ i < k + 1, slice (List.replicate (k + 1) g).flatten (8 * i) 8 = g := fun i h => flat_slice hg h
  generalize (List.replicate (k + 1) g).flatten = x at hl hx
  have h0 : slice x 0 8 = g := hx 0 (by omega)
  have ht : (trailer x).length = 37 := by simp [trailer]
  unfold ostreamBits orefOps
  rw [List.length_append, ht, hl, show 8 * (k + 1) / 8 = k + 1 by omega, orefLoop]
  have htail := fun T => opt_tail hx k T 1 0 (by omega) (by omega)
  simp only [Nat.mul_one, Nat.zero_add] at htail
  simp only [orefStep, h0, Nat.zero_add]
  rw [if_neg (by simp)]
  unfold headCost
  by_cases hz : g = List.replicate 8 0#8
  · rw [if_pos hz, if_pos hz, List.flatMap_append, List.length_append, htail]; simp [repOps, Op.bits]
  · rw [if_neg hz, if_neg hz, List.flatMap_append, List.length_append, htail]
    obtain ⟨b1, b2, b3, -⟩ := OTab.init.blockOp_ok (x := x) (pos := 0) rfl (by omega)
    rw [List.take_zero, Nat.zero_add, show x.take 8 = g from h0] at b3
    have := first_cost b1 b2 hg b3 hz
    simp [repOps, this]

theorem no_waste {g : List Byte} (hg : g.length = 8) (hz : g ≠ List.replicate 8 0#8) (m : Nat) : zeroWaste (List.replicate m g).flatten = 0 := by
  unfold zeroWaste
  rw [flat_length hg, Nat.mul_div_cancel_left _ (by omega)]
  rw [List.map_congr_left (g := fun _ => 0)]
  · induction m with
    | zero => rfl
    | succ m ih => rw [List.range_succ, List.map_append, List.sum_append, ih]; rfl
  · intro i hi
    have h1 := flat_slice hg (List.mem_range.1 hi)
    have : zeroGroup (List.replicate m g).flatten i = false := by
      unfold zeroGroup
      rw [show List.take 8 (List.drop (8 * i) (List.replicate m g).flatten) = g from h1]
      exact decide_eq_false hz
    rw [this]
    rfl

end Lib842.Runs
