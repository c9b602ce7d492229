import Verif.Model.Basic
import Mathlib.Tactic.IntervalCases
import Mathlib.Data.List.Induction
/-!
# Lemmas about bit strings, byte strings and words
-/

namespace Lib842
open Spec

/-! ## bitsOf -/

@[simp] theorem length_bitsOf (n v : Nat) : (bitsOf n v).length = n := by simp [bitsOf]

theorem getElem_bitsOf (n v i : Nat) (h : i < (bitsOf n v).length) :
    (bitsOf n v)[i] = v.testBit (n - 1 - i) := by simp [bitsOf]

@[simp] theorem bitsOf_zero (v : Nat) : bitsOf 0 v = [] := rfl

theorem bitsOf_congr {n a b : Nat} (h : ∀ i, i < n → a.testBit i = b.testBit i) :
    bitsOf n a = bitsOf n b := by
  apply List.ext_getElem (by simp)
  intro i h1 h2
  simp only [length_bitsOf] at h1
  rw [getElem_bitsOf, getElem_bitsOf]
  exact h _ (by omega)

theorem bitsOf_mod (n a : Nat) : bitsOf n (a % 2 ^ n) = bitsOf n a := by
  apply bitsOf_congr
  intro i hi
  simp [Nat.testBit_mod_two_pow, hi]

theorem bitsOf_append (a b v : Nat) :
    bitsOf (a + b) v = bitsOf a (v >>> b) ++ bitsOf b v := by
  apply List.ext_getElem (by simp)
  intro i h1 h2
  simp only [length_bitsOf] at h1
  rw [getElem_bitsOf, List.getElem_append]
  split
  · rename_i h
    simp only [length_bitsOf] at h
    rw [getElem_bitsOf, Nat.testBit_shiftRight]
    congr 1; omega
  · rename_i h
    simp only [length_bitsOf] at h
    rw [getElem_bitsOf]
    congr 1
    simp only [length_bitsOf]; omega

theorem bitsOf_inj {n a b : Nat} (h : bitsOf n a = bitsOf n b) (ha : a < 2 ^ n) (hb : b < 2 ^ n) :
    a = b := by
  apply Nat.eq_of_testBit_eq
  intro i
  by_cases hi : i < n
  · have hl : n - 1 - i < (bitsOf n a).length := by simp; omega
    have h1 := getElem_bitsOf n a (n - 1 - i) hl
    have h2 := getElem_bitsOf n b (n - 1 - i) (by simp; omega)
    have e : n - 1 - (n - 1 - i) = i := by omega
    rw [e] at h1 h2
    rw [← h1, ← h2]
    simp [h]
  · rw [Nat.testBit_lt_two_pow (Nat.lt_of_lt_of_le ha (Nat.pow_le_pow_right (by omega) (by omega))),
      Nat.testBit_lt_two_pow (Nat.lt_of_lt_of_le hb (Nat.pow_le_pow_right (by omega) (by omega)))]

theorem bitsOf_zero_val (n : Nat) : bitsOf n 0 = List.replicate n false := by
  apply List.ext_getElem (by simp)
  intro i h1 h2
  rw [getElem_bitsOf]; simp

/-- Value of a bit string, most significant bit first. -/
def bitsVal (l : List Bool) : Nat := l.foldl (fun a b => 2 * a + b.toNat) 0

theorem bitsVal_append_singleton (l : List Bool) (b : Bool) :
    bitsVal (l ++ [b]) = 2 * bitsVal l + b.toNat := by simp [bitsVal]

theorem bitsOf_succ (n v : Nat) : bitsOf (n + 1) v = bitsOf n (v / 2) ++ [v.testBit 0] := by
  rw [bitsOf_append n 1, Nat.shiftRight_succ, Nat.shiftRight_zero]
  simp [bitsOf]

theorem bitsVal_lt : ∀ l : List Bool, bitsVal l < 2 ^ l.length := by
  intro l
  induction l using List.reverseRecOn with
  | nil => simp [bitsVal]
  | append_singleton l b ih =>
    rw [bitsVal_append_singleton]
    simp only [List.length_append, List.length_singleton, Nat.pow_succ]
    cases b <;> simp <;> omega

theorem bitsOf_bitsVal : ∀ l : List Bool, bitsOf l.length (bitsVal l) = l := by
  intro l
  induction l using List.reverseRecOn with
  | nil => rfl
  | append_singleton l b ih =>
    rw [bitsVal_append_singleton]
    simp only [List.length_append, List.length_singleton]
    rw [bitsOf_succ]
    have h1 : (2 * bitsVal l + b.toNat) / 2 = bitsVal l := by cases b <;> simp <;> omega
    have h2 : (2 * bitsVal l + b.toNat).testBit 0 = b := by
      rw [Nat.testBit_zero]; cases b <;> simp
    rw [h1, h2, ih]

theorem bitsVal_bitsOf (n v : Nat) : bitsVal (bitsOf n v) = v % 2 ^ n := by
  have h := bitsOf_bitsVal (bitsOf n v)
  simp only [length_bitsOf] at h
  have hlt := bitsVal_lt (bitsOf n v)
  simp only [length_bitsOf] at hlt
  refine bitsOf_inj (n := n) ?_ hlt (Nat.mod_lt _ (Nat.two_pow_pos n))
  rw [h, bitsOf_mod]

/-! ## bytesBits -/

@[simp] theorem bytesBits_nil : bytesBits [] = [] := rfl
@[simp] theorem bytesBits_cons (b : Byte) (bs) :
    bytesBits (b :: bs) = bitsOf 8 b.toNat ++ bytesBits bs := rfl
@[simp] theorem bytesBits_append (a b : List Byte) :
    bytesBits (a ++ b) = bytesBits a ++ bytesBits b := by simp [bytesBits]

@[simp] theorem length_bytesBits (bs : List Byte) : (bytesBits bs).length = 8 * bs.length := by
  induction bs with
  | nil => rfl
  | cons b bs ih => simp [ih]; omega

theorem bytesBits_take (bs : List Byte) (i : Nat) :
    bytesBits (bs.take i) = (bytesBits bs).take (8 * i) := by
  induction i generalizing bs with
  | zero => simp
  | succ i ih =>
    cases bs with
    | nil => simp
    | cons b bs =>
      simp only [List.take_succ_cons, bytesBits_cons, ih]
      rw [List.take_append, show 8 * (i + 1) - (bitsOf 8 b.toNat).length = 8 * i by simp only [length_bitsOf]; omega,
        List.take_of_length_le (l := bitsOf 8 b.toNat) (by simp only [length_bitsOf]; omega)]

theorem bytesBits_drop (bs : List Byte) (i : Nat) :
    bytesBits (bs.drop i) = (bytesBits bs).drop (8 * i) := by
  induction i generalizing bs with
  | zero => simp
  | succ i ih =>
    cases bs with
    | nil => simp
    | cons b bs =>
      simp only [List.drop_succ_cons, bytesBits_cons, ih]
      rw [List.drop_append, show 8 * (i + 1) - (bitsOf 8 b.toNat).length = 8 * i by simp only [length_bitsOf]; omega,
        List.drop_eq_nil_of_le (as := bitsOf 8 b.toNat) (by simp only [length_bitsOf]; omega)]
      rfl

theorem bytesBits_inj {a b : List Byte} (h : bytesBits a = bytesBits b) : a = b := by
  induction a generalizing b with
  | nil =>
    cases b with
    | nil => rfl
    | cons b bs =>
      have := congrArg List.length h
      simp at this
      try omega
  | cons x xs ih =>
    cases b with
    | nil =>
      have := congrArg List.length h
      simp at this
      try omega
    | cons y ys =>
      simp only [bytesBits_cons] at h
      have := List.append_inj h (by simp)
      rw [ih this.2]
      congr 1
      apply BitVec.eq_of_toNat_eq
      exact bitsOf_inj this.1 x.isLt y.isLt

/-! ## Words -/

theorem bitsOf_bv_append {w v : Nat} (a : BitVec w) (b : BitVec v) :
    bitsOf (w + v) (a ++ b).toNat = bitsOf w a.toNat ++ bitsOf v b.toNat := by
  rw [bitsOf_append]
  congr 1
  · apply bitsOf_congr
    intro i hi
    rw [Nat.testBit_shiftRight, BitVec.testBit_toNat, BitVec.testBit_toNat, BitVec.getLsbD_append]
    simp
  · apply bitsOf_congr
    intro i hi
    rw [BitVec.testBit_toNat, BitVec.testBit_toNat, BitVec.getLsbD_append]
    simp [hi]

theorem swap16_append (a b : Byte) : swap16 (b ++ a) = a ++ b := by
  apply BitVec.eq_of_getLsbD_eq
  intro i hi
  simp only [swap16, BitVec.getLsbD_or, BitVec.getLsbD_shiftLeft, BitVec.getLsbD_and,
    BitVec.getLsbD_ushiftRight, BitVec.getLsbD_append]
  interval_cases i <;> simp

theorem swap32_append (a b c d : Byte) : swap32 (d ++ c ++ b ++ a) = a ++ b ++ c ++ d := by
  apply BitVec.eq_of_getLsbD_eq
  intro i hi
  simp only [swap32, BitVec.getLsbD_or, BitVec.getLsbD_shiftLeft, BitVec.getLsbD_and,
    BitVec.getLsbD_ushiftRight, BitVec.getLsbD_append]
  interval_cases i <;> simp

set_option maxRecDepth 4000 in
theorem swap64_append (a b c d e f g h : Byte) :
    swap64 (h ++ g ++ f ++ e ++ d ++ c ++ b ++ a) = a ++ b ++ c ++ d ++ e ++ f ++ g ++ h := by
  apply BitVec.eq_of_getLsbD_eq
  intro i hi
  simp only [swap64, BitVec.getLsbD_or, BitVec.getLsbD_shiftLeft, BitVec.getLsbD_and,
    BitVec.getLsbD_ushiftRight, BitVec.getLsbD_append]
  interval_cases i <;> simp

end Lib842
