import Verif.Model.Log2
import Mathlib.Data.Nat.Log
import Mathlib.Data.Nat.Bitwise
import Mathlib.Tactic.NormNum
import Mathlib.Tactic.Positivity
/-!
# C49: `static_log2.h`
-/

namespace Lib842.Props

open Lib842

theorem ladder_hit (arg k : Nat) (v : Int) (rest : List (Nat × Int)) (h : arg.testBit k = true) :
    ladder arg ((k, v) :: rest) = v := by
  unfold ladder
  rw [if_pos]
  intro h0
  have : (arg &&& 1 <<< k).testBit k = false := by rw [h0]; simp
  rw [Nat.testBit_and, h, Nat.one_shiftLeft, Nat.testBit_two_pow_self] at this
  simp at this

theorem ladder_miss (arg k : Nat) (v : Int) (rest : List (Nat × Int)) (h : arg < 2 ^ k) :
    ladder arg ((k, v) :: rest) = ladder arg rest := by
  conv_lhs => unfold ladder
  rw [if_neg]
  intro h0
  apply h0
  rw [Nat.one_shiftLeft, Nat.and_two_pow, Nat.testBit_lt_two_pow h]
  simp

/-- One branch of the ladder: below `2^(k+1)` it settles the values from `2^k` up. -/
theorem ladder_step (arg k : Nat) (v : Int) (rest : List (Nat × Int)) (h : arg < 2 ^ (k + 1)) :
    ladder arg ((k, v) :: rest) = if 2 ^ k ≤ arg then v else ladder arg rest := by
  split
  · rename_i hk
    exact ladder_hit _ _ _ _ (by
      rw [Nat.testBit_eq_decide_div_mod_eq]
      have : arg / 2 ^ k = 1 := by
        rw [Nat.div_eq_iff (by positivity)]
        rw [pow_succ] at h
        omega
      simp [this])
  · exact ladder_miss _ _ _ _ (by omega)

/-- The ladder from bit `k` down to bit 2 -/
theorem ladder_run (arg : Nat) (rest : List (Nat × Int)) (h4 : 4 ≤ arg) : ∀ n, arg < 2 ^ (n + 3) →
    ladder arg (((List.range (n + 1)).map fun i => ((n + 2 - i, ((n + 2 - i : Nat) : Int)))) ++ rest) =
      Nat.log 2 arg := by
  intro n
  induction n with
  | zero =>
    intro h
    simp only [List.range_succ, List.range_zero, List.nil_append, List.map_cons, List.map_nil,
      List.singleton_append]
    rw [ladder_step _ _ _ _ (by simpa using h), if_pos (by simpa using h4)]
    have : Nat.log 2 arg = 2 := (Nat.log_eq_iff (Or.inl (by norm_num))).2 ⟨by omega, by omega⟩
    rw [this]
  | succ n ih =>
    intro h
    rw [List.range_succ_eq_map, List.map_cons, List.cons_append, ladder_step _ _ _ _ (by simpa using h)]
    split
    · rename_i hk
      have : Nat.log 2 arg = n + 3 := (Nat.log_eq_iff (Or.inl (by omega))).2
        ⟨by simpa using hk, by simpa using h⟩
      rw [this, Nat.sub_zero]
    · rename_i hk
      rw [← ih (by simpa using hk), List.map_map]
      congr 2
      apply List.map_congr_left
      intro i hi
      simp only [Function.comp, Nat.succ_eq_add_one]
      have : n + 1 + 2 - (i + 1) = n + 2 - i := by omega
      rw [this]

/-- C49, the part that holds: from 4 up to `2^32 - 1` the value is the floor of the binary
logarithm.  Missing: 1, 2 and 3, where it is wrong (`C49_static_log2_false`). -/
theorem C49_static_log2_partial (arg : Nat) (h4 : 4 ≤ arg) (h : arg < 2 ^ 32) :
    staticLog2 arg = Nat.log 2 arg := by
  have := ladder_run arg [(1, 0)] h4 29 (by simpa using h)
  rw [← this]
  rfl

example : staticLog2 89 = 6 ∧ staticLog2 8 = 3 ∧ staticLog2 1234 = 10 ∧ Nat.log 2 1234 = 10 := by
  refine ⟨by decide, by decide, by decide, (Nat.log_eq_iff (Or.inl (by norm_num))).2 ⟨by norm_num, by norm_num⟩⟩

/-- C49 is false: the logarithm of 1 is 0 and that of 2 and 3 is 1, the ladder gives -1
and 0. -/
theorem C49_static_log2_false :
    ¬ (∀ arg : Nat, 1 ≤ arg → arg < 2 ^ 32 → staticLog2 arg = Nat.log 2 arg) ∧
    staticLog2 1 = -1 ∧ staticLog2 2 = 0 ∧ staticLog2 3 = 0 := by
  refine ⟨fun h => ?_, by decide, by decide, by decide⟩
  have := h 2 (by norm_num) (by norm_num)
  have h2 : Nat.log 2 2 = 1 := (Nat.log_eq_iff (Or.inl (by norm_num))).2 ⟨by norm_num, by norm_num⟩
  rw [h2] at this
  exact absurd this (by decide)

end Lib842.Props
