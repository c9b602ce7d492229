import Verif.Proofs.Words
import Mathlib.Logic.Function.Iterate
/-!
# Algebra of the bit-serial CRC
-/

namespace Lib842
open Spec

/-- CRC state after feeding a bit string. -/
def feed (c : BitVec 32) (l : List Bool) : BitVec 32 := l.foldl crcStep c

@[simp] theorem feed_nil (c) : feed c [] = c := rfl
@[simp] theorem feed_cons (c b l) : feed c (b :: l) = feed (crcStep c b) l := rfl
theorem feed_append (c l₁ l₂) : feed c (l₁ ++ l₂) = feed (feed c l₁) l₂ := by simp [feed]

theorem crc_eq_feed (d) : crc d = feed 0#32 (bytesBits d) := rfl

/-- One CRC step with input bit 0. -/
def step0 (c : BitVec 32) : BitVec 32 := crcStep c false

theorem xor_bool_cases (a b : Bool) : (a ^^ b) = (a != b) := by cases a <;> cases b <;> rfl

theorem crcStep_xor (a c : BitVec 32) (x y : Bool) :
    crcStep (a ^^^ c) (x ^^ y) = crcStep a x ^^^ crcStep c y := by
  unfold crcStep
  rw [BitVec.msb_xor, BitVec.shiftLeft_xor_distrib]
  generalize a <<< 1 = a', c <<< 1 = c', (0x04c11db7#32) = P
  have e : a' ^^^ P ^^^ (c' ^^^ P) = a' ^^^ c' := by
    rw [BitVec.xor_comm c' P, BitVec.xor_assoc, ← BitVec.xor_assoc P P, BitVec.xor_self,
      BitVec.zero_xor]
  have e2 : a' ^^^ c' ^^^ P = a' ^^^ P ^^^ c' := by ac_rfl
  have e3 : a' ^^^ c' ^^^ P = a' ^^^ (c' ^^^ P) := by ac_rfl
  cases a.msb <;> cases c.msb <;> cases x <;> cases y <;> simp [e, e2] <;> ac_rfl

theorem step0_xor (a c : BitVec 32) : step0 (a ^^^ c) = step0 a ^^^ step0 c := by
  have := crcStep_xor a c false false
  simpa [step0] using this

theorem step0_zero : step0 0#32 = 0#32 := by decide

theorem step0_iter_xor (n : Nat) (a c : BitVec 32) :
    step0^[n] (a ^^^ c) = step0^[n] a ^^^ step0^[n] c := by
  induction n generalizing a c with
  | zero => rfl
  | succ n ih => simp only [Function.iterate_succ_apply, step0_xor, ih]

theorem step0_iter_zero (n : Nat) : step0^[n] 0#32 = 0#32 := by
  induction n with
  | zero => rfl
  | succ n ih => rw [Function.iterate_succ_apply, step0_zero, ih]

/-- A single bit at the top of the CRC register. -/
def topBit (b : Bool) : BitVec 32 := if b then 0x80000000#32 else 0#32

theorem crcStep_eq (c : BitVec 32) (b : Bool) : crcStep c b = step0 (c ^^^ topBit b) := by
  rw [step0_xor]
  have : crcStep c b = crcStep c false ^^^ crcStep 0#32 b := by
    have := crcStep_xor c 0#32 false b
    simpa using this
  rw [this]
  congr 1
  cases b <;> decide

/-- A bit string placed at the top of the CRC register. -/
def topAlign : List Bool → BitVec 32
  | [] => 0#32
  | b :: l => topBit b ^^^ (topAlign l >>> 1)

theorem getMsbD_topBit (b : Bool) (i : Nat) : (topBit b).getMsbD i = (decide (i = 0) && b) := by
  cases b
  · simp [topBit]
  · simp only [topBit, if_true, Bool.and_true]
    rcases Nat.eq_zero_or_pos i with rfl | h
    · decide
    · by_cases h2 : i < 32
      · interval_cases i <;> decide
      · have : ¬ (i = 0) := by omega
        simp [BitVec.getMsbD, h2, this]

theorem getMsbD_topAlign (l : List Bool) (i : Nat) (h : i < 32) :
    (topAlign l).getMsbD i = (l[i]?).getD false := by
  induction l generalizing i with
  | nil => simp [topAlign]
  | cons b l ih =>
    rw [topAlign, BitVec.getMsbD_xor, getMsbD_topBit, BitVec.getMsbD_ushiftRight]
    cases i with
    | zero => simp
    | succ i => simp [ih i (by omega), h]

theorem topAlign_bitsOf (n : Nat) (x : BitVec n) (hn : n ≤ 32) :
    topAlign (bitsOf n x.toNat) = x.setWidth 32 <<< (32 - n) := by
  apply BitVec.eq_of_getMsbD_eq
  intro i hi
  rw [getMsbD_topAlign _ _ hi, BitVec.getMsbD_shiftLeft, BitVec.getMsbD_setWidth]
  by_cases h : i < n
  · rw [List.getElem?_eq_getElem (by simpa using h), getElem_bitsOf, BitVec.testBit_toNat]
    simp only [Option.getD_some]
    rw [BitVec.getMsbD]
    have e2 : n - 1 - (i + (32 - n) - (32 - n)) = n - 1 - i := by omega
    have h1 : i + (32 - n) < 32 := by omega
    have e3 : i + (32 - n) + n - 32 = i := by omega
    simp [e3, h]
  · rw [List.getElem?_eq_none (by simp; omega)]
    have h1 : ¬ i + (32 - n) < 32 := by omega
    simp only [Option.getD_none]
    symm
    simp only [Bool.and_eq_false_imp]
    intro h2
    rw [BitVec.getMsbD, decide_eq_false (by omega)]
    simp

theorem step0_shift (x : BitVec 32) (h : x.getLsbD 0 = false) : step0 (x >>> 1) = x := by
  have hm : (x >>> 1).msb = false := by
    rw [BitVec.msb_eq_getLsbD_last, BitVec.getLsbD_ushiftRight]; simp
  simp only [step0, crcStep, hm]
  apply BitVec.eq_of_getLsbD_eq
  intro i hi
  simp only [bne_self_eq_false, Bool.false_eq_true, if_false, BitVec.getLsbD_shiftLeft,
    BitVec.getLsbD_ushiftRight]
  rcases Nat.eq_zero_or_pos i with rfl | hp
  · simpa using h.symm
  · have : 1 + (i - 1) = i := by omega
    rw [this]; simp [hi]; omega

theorem topAlign_lsb (l : List Bool) (h : l.length < 32) : (topAlign l).getLsbD 0 = false := by
  have := getMsbD_topAlign l 31 (by omega)
  rw [BitVec.getMsbD, decide_eq_true (by omega)] at this
  rw [List.getElem?_eq_none (by omega)] at this
  simpa using this

theorem feed_eq (l : List Bool) (hl : l.length ≤ 32) (c : BitVec 32) :
    feed c l = step0^[l.length] (c ^^^ topAlign l) := by
  induction l generalizing c with
  | nil => simp [topAlign]
  | cons b l ih =>
    simp only [List.length_cons] at hl
    rw [feed_cons, ih (by omega), List.length_cons, Function.iterate_succ_apply, crcStep_eq,
      topAlign, ← BitVec.xor_assoc, step0_xor (c ^^^ topBit b) (topAlign l >>> 1),
      step0_shift _ (topAlign_lsb l (by omega))]

/-- Eight CRC steps with zero input. -/
def F (c : BitVec 32) : BitVec 32 := step0^[8] c

theorem F_xor (a b) : F (a ^^^ b) = F a ^^^ F b := step0_iter_xor 8 a b
theorem F_zero : F 0#32 = 0#32 := step0_iter_zero 8

theorem F_iter_xor (n) (a b) : F^[n] (a ^^^ b) = F^[n] a ^^^ F^[n] b := by
  induction n generalizing a b with
  | zero => rfl
  | succ n ih => simp only [Function.iterate_succ_apply, F_xor, ih]

theorem F_iter (n : Nat) (c) : F^[n] c = step0^[8 * n] c := by
  have : F = step0^[8] := rfl
  rw [this, Function.iterate_mul]

theorem feed_byte (c : BitVec 32) (x : Byte) :
    feed c (bitsOf 8 x.toNat) = F (c ^^^ (x.setWidth 32 <<< 24)) := by
  rw [feed_eq _ (by simp), topAlign_bitsOf 8 x (by omega), length_bitsOf]; rfl

theorem feed_word (c : BitVec 32) (w : BitVec 32) :
    feed c (bitsOf 32 w.toNat) = F^[4] (c ^^^ w) := by
  rw [feed_eq _ (by simp), topAlign_bitsOf 32 w (by omega), F_iter, length_bitsOf]
  simp

theorem step0_lo (x : BitVec 32) (h : x.msb = false) : step0 x = x <<< 1 := by
  simp [step0, crcStep, h]

theorem step0_iter_lo (k : Nat) (x : BitVec 32) (h : ∀ i, i < k → x.getMsbD i = false) :
    step0^[k] x = x <<< k := by
  induction k with
  | zero => simp
  | succ k ih =>
    rw [Function.iterate_succ_apply', ih (fun i hi => h i (by omega)), step0_lo]
    · rw [BitVec.shiftLeft_add]
    · rw [BitVec.msb, BitVec.getMsbD_shiftLeft]
      simpa using h k (by omega)

theorem F_lo (x : BitVec 32) (h : ∀ i, i < 8 → x.getMsbD i = false) : F x = x <<< 8 :=
  step0_iter_lo 8 x h

/-- The four bytes of a word, each at its place. -/
theorem word_split (w : BitVec 32) :
    w = ((w >>> 24) &&& 255#32) <<< 24 ^^^ ((w >>> 16) &&& 255#32) <<< 16 ^^^
        ((w >>> 8) &&& 255#32) <<< 8 ^^^ (w &&& 255#32) := by
  apply BitVec.eq_of_getLsbD_eq
  intro i hi
  simp only [BitVec.getLsbD_xor, BitVec.getLsbD_shiftLeft, BitVec.getLsbD_and,
    BitVec.getLsbD_ushiftRight]
  interval_cases i <;> simp

theorem getLsbD_and255 (w : BitVec 32) (i : Nat) (h : 8 ≤ i) : (w &&& 255#32).getLsbD i = false := by
  rw [BitVec.getLsbD_and]
  by_cases hi : i < 32
  · interval_cases i <;> simp
  · rw [BitVec.getLsbD_of_ge _ _ (by omega)]; rfl

theorem F_shift (x : BitVec 32) (k : Nat) (hk : k ≤ 16) :
    F ((x &&& 255#32) <<< k) = (x &&& 255#32) <<< (k + 8) := by
  rw [F_lo, BitVec.shiftLeft_add]
  intro i hi
  rw [BitVec.getMsbD, BitVec.getLsbD_shiftLeft, getLsbD_and255 x _ (by omega)]
  simp

/-- `F^4` of a word through the per-byte contributions. -/
theorem F_word (n : Nat) (w : BitVec 32) :
    F^[n + 4] w =
      F^[n + 4] (((w >>> 24) &&& 255#32) <<< 24) ^^^ F^[n + 3] (((w >>> 16) &&& 255#32) <<< 24) ^^^
      F^[n + 2] (((w >>> 8) &&& 255#32) <<< 24) ^^^ F^[n + 1] ((w &&& 255#32) <<< 24) := by
  conv => lhs; rw [word_split w]
  rw [F_iter_xor, F_iter_xor, F_iter_xor]
  have h3 : F^[n + 4] ((w >>> 16 &&& 255#32) <<< 16) = F^[n + 3] ((w >>> 16 &&& 255#32) <<< 24) := by
    rw [Function.iterate_succ_apply, F_shift _ 16 (by omega)]
  have h2 : F^[n + 4] ((w >>> 8 &&& 255#32) <<< 8) = F^[n + 2] ((w >>> 8 &&& 255#32) <<< 24) := by
    rw [Function.iterate_succ_apply, F_shift _ 8 (by omega), Function.iterate_succ_apply,
      F_shift _ 16 (by omega)]
  have h1 : F^[n + 4] (w &&& 255#32) = F^[n + 1] ((w &&& 255#32) <<< 24) := by
    have h0 : (w &&& 255#32) = (w &&& 255#32) <<< 0 := by simp
    conv => lhs; rw [h0]
    rw [Function.iterate_succ_apply, F_shift _ 0 (by omega), Function.iterate_succ_apply,
      F_shift _ 8 (by omega), Function.iterate_succ_apply, F_shift _ 16 (by omega)]
  rw [h1, h2, h3]

/-- One byte step in table form. -/
theorem F_byte (c : BitVec 32) : F c = F ((c >>> 24) <<< 24) ^^^ (c <<< 8) := by
  have hs : c = ((c >>> 24) <<< 24) ^^^ (c &&& 0x00ffffff#32) := by
    apply BitVec.eq_of_getLsbD_eq
    intro i hi
    simp only [BitVec.getLsbD_xor, BitVec.getLsbD_shiftLeft, BitVec.getLsbD_and,
      BitVec.getLsbD_ushiftRight]
    interval_cases i <;> simp
  have hlo : F (c &&& 0x00ffffff#32) = c <<< 8 := by
    rw [F_lo]
    · apply BitVec.eq_of_getLsbD_eq
      intro i hi
      simp only [BitVec.getLsbD_shiftLeft, BitVec.getLsbD_and]
      interval_cases i <;> simp
    · intro i hi
      rw [BitVec.getMsbD, BitVec.getLsbD_and]
      interval_cases i <;> simp
  conv => lhs; rw [hs, F_xor, hlo]

end Lib842
