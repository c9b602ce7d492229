import Verif.Proofs.CrcSpec
import Mathlib.Dynamics.PeriodicPts.Defs
import Mathlib.Tactic.NormNum.Prime
import Mathlib.Tactic.IntervalCases
/-!
# The period of the CRC register

Shifting zero bits into the register (multiplication with x modulo the polynomial) has the period 2^32 - 1: the polynomial
is primitive.
-/

namespace Lib842
open Spec

/-- Product of `a` and the first `k` bits of `v` modulo the polynomial -/
def gmul (a v : BitVec 32) : Nat → BitVec 32
  | 0 => 0#32
  | k + 1 => step0 (gmul a v k) ^^^ (if v.getMsbD k then a else 0#32)

theorem gmul_iter (n : Nat) (a v : BitVec 32) (k : Nat) : gmul (step0^[n] a) v k = step0^[n] (gmul a v k) := by
  induction k with
  | zero => exact (step0_iter_zero n).symm
  | succ k ih =>
    rw [gmul, gmul, ih, step0_iter_xor, ← Function.iterate_succ_apply' step0, Function.iterate_succ_apply]
    split
    · rfl
    · rw [step0_iter_zero]

theorem gmul_one (v : BitVec 32) (k : Nat) (hk : k ≤ 32) : gmul 1#32 v k = v >>> (32 - k) := by
  induction k with
  | zero =>
    apply BitVec.eq_of_getLsbD_eq
    intro i hi
    rw [gmul, BitVec.getLsbD_ushiftRight, BitVec.getLsbD_of_ge v _ (by omega), BitVec.getLsbD_zero]
  | succ k ih =>
    rw [gmul, ih (by omega), step0_lo _ (by
      rw [BitVec.msb_eq_getLsbD_last, BitVec.getLsbD_ushiftRight, BitVec.getLsbD_of_ge v _ (by omega)])]
    apply BitVec.eq_of_getLsbD_eq
    intro i hi
    rw [BitVec.getLsbD_xor, BitVec.getLsbD_shiftLeft, BitVec.getLsbD_ushiftRight, BitVec.getLsbD_ushiftRight,
      BitVec.getMsbD_eq_getLsbD]
    have hk' : k < 32 := by omega
    have e2 : 32 - (k + 1) = 32 - 1 - k := by omega
    rcases Nat.eq_zero_or_pos i with rfl | h
    · cases hb : v.getLsbD (32 - 1 - k) <;> simp [hk', e2, hb]
    · have e : 32 - k + (i - 1) = 32 - (k + 1) + i := by omega
      have ho : (1#32).getLsbD i = false := by
        interval_cases i <;> decide
      rw [e]
      split
      · rw [ho, Bool.xor_false]; simp [hi, show ¬ i < 1 by omega]
      · rw [BitVec.getLsbD_zero, Bool.xor_false]; simp [hi, show ¬ i < 1 by omega]

/-- Shifting `n` zeros into a register is a product. -/
theorem step0_iter_gmul (n : Nat) (v : BitVec 32) : step0^[n] v = gmul (step0^[n] 1#32) v 32 := by
  rw [gmul_iter, gmul_one v 32 (Nat.le_refl _)]
  simp

/-- Checks a computation by squaring: every element is the square of the one before, or x times that. -/
def checkPow : List (Bool × BitVec 32) → BitVec 32 → Bool
  | [], _ => true
  | (b, q) :: l, p => decide ((if b then step0 (gmul p p 32) else gmul p p 32) = q) && checkPow l q

/-- The exponent: binary digits, most significant digit first -/
def expOf (l : List (Bool × BitVec 32)) (n : Nat) : Nat := l.foldl (fun n b => 2 * n + if b.1 then 1 else 0) n

theorem checkPow_eq (l : List (Bool × BitVec 32)) (n : Nat) (p : BitVec 32) (h : checkPow l p = true)
    (hp : step0^[n] 1#32 = p) : step0^[expOf l n] 1#32 = (l.getLast?.map (·.2)).getD p := by
  induction l generalizing n p with
  | nil => exact hp
  | cons x l ih =>
    obtain ⟨b, q⟩ := x
    rw [checkPow, Bool.and_eq_true, decide_eq_true_eq] at h
    obtain ⟨h1, h2⟩ := h
    have hq : step0^[2 * n + if b then 1 else 0] 1#32 = q := by
      rw [← h1, ← hp, ← step0_iter_gmul, ← Function.iterate_add_apply, ← Nat.two_mul]
      cases b
      · rfl
      · exact Function.iterate_succ_apply' _ _ _
    have := ih _ q h2 hq
    rw [show expOf ((b, q) :: l) n = expOf l (2 * n + if b then 1 else 0) from rfl, this]
    cases l with
    | nil => rfl
    | cons y l => simp [List.getLast?_cons]

/-- powers of x for the first digits of 2^32 - 1 -/
def chainFull : List (Bool × BitVec 32) :=
  [(true, 0x00000002#32), (true, 0x00000008#32), (true, 0x00000080#32), (true, 0x00008000#32),
   (true, 0x80000000#32), (true, 0xa6e63d1d#32), (true, 0xf632a5d9#32), (true, 0xb8bfad80#32),
   (true, 0xf171cb53#32), (true, 0xa95f602e#32), (true, 0xc61f9fc0#32), (true, 0x852231e3#32),
   (true, 0x3800f213#32), (true, 0x03aef159#32), (true, 0x78953fc8#32), (true, 0xfa3ade3b#32),
   (true, 0x2c7a3606#32), (true, 0x619cad6f#32), (true, 0x4b41bfc6#32), (true, 0xa8409527#32),
   (true, 0x11dbd89b#32), (true, 0x5970b5d4#32), (true, 0x392f3dfd#32), (true, 0xf458c375#32),
   (true, 0x7bbd393a#32), (true, 0x1422eab9#32), (true, 0x83c79c51#32), (true, 0x3cb4aca1#32),
   (true, 0x2a065894#32), (true, 0x87d266ca#32), (true, 0x9c7aad4a#32), (true, 0x00000001#32)]

/-- powers of x for the first digits of (2^32 - 1) / 3 -/
def chain3 : List (Bool × BitVec 32) :=
  [(false, 0x00000001#32), (true, 0x00000002#32), (false, 0x00000004#32), (true, 0x00000020#32),
   (false, 0x00000400#32), (true, 0x00200000#32), (false, 0x452421a9#32), (true, 0xc824f22f#32),
   (false, 0x0c1d62ba#32), (true, 0xa714aa87#32), (false, 0x6c9a5002#32), (true, 0x8b3a4652#32),
   (false, 0x012958d4#32), (true, 0xcbf763fc#32), (false, 0xdf6d70cc#32), (true, 0x526405d7#32),
   (false, 0x356e35d7#32), (true, 0x0aba15d5#32), (false, 0x81a1485f#32), (true, 0x8491e61d#32),
   (false, 0x0f13e953#32), (true, 0xfdcd8485#32), (false, 0x81b72f8d#32), (true, 0xb2628142#32),
   (false, 0x70992899#32), (true, 0xe569e9b7#32), (false, 0x77d3076b#32), (true, 0xb405d519#32),
   (false, 0x75c04911#32), (true, 0x1510d370#32), (false, 0x43232a9c#32), (true, 0x4ad76ce3#32)]

/-- powers of x for the first digits of (2^32 - 1) / 5 -/
def chain5 : List (Bool × BitVec 32) :=
  [(false, 0x00000001#32), (false, 0x00000001#32), (true, 0x00000002#32), (true, 0x00000008#32),
   (false, 0x00000040#32), (false, 0x00001000#32), (true, 0x02000000#32), (true, 0x0ec56438#32),
   (false, 0x61146f74#32), (false, 0x0064c29d#32), (true, 0x92c04136#32), (true, 0x9614956a#32),
   (false, 0xc88f7e66#32), (false, 0x6b6c2402#32), (true, 0xa1c5833f#32), (true, 0xef399583#32),
   (false, 0xd182cb68#32), (false, 0xf9b58516#32), (true, 0x5fad5bd2#32), (true, 0x5e27d4dc#32),
   (false, 0x085a2c5a#32), (false, 0x97b16ce0#32), (true, 0xa5892eb9#32), (true, 0x8d02e563#32),
   (false, 0xfc7fb7bb#32), (false, 0x40157cbb#32), (true, 0xf11adffa#32), (true, 0x4712abe0#32),
   (false, 0x697c1848#32), (false, 0x02a92cc0#32), (true, 0x6e2f8472#32), (true, 0x1e488021#32)]

/-- powers of x for the first digits of (2^32 - 1) / 17 -/
def chain17 : List (Bool × BitVec 32) :=
  [(false, 0x00000001#32), (false, 0x00000001#32), (false, 0x00000001#32), (false, 0x00000001#32),
   (true, 0x00000002#32), (true, 0x00000008#32), (true, 0x00000080#32), (true, 0x00008000#32),
   (false, 0x40000000#32), (false, 0xf7142da3#32), (false, 0x07f6e306#32), (false, 0xd60a6c79#32),
   (true, 0xa2618039#32), (true, 0x72a085b7#32), (true, 0x293a83fa#32), (true, 0xf3b9f807#32),
   (false, 0x33599433#32), (false, 0x153dfa23#32), (false, 0x7e10ac80#32), (false, 0xad062161#32),
   (true, 0x3dd75c23#32), (true, 0x06d62230#32), (true, 0x812ed531#32), (true, 0x5a1a96f5#32),
   (false, 0xeebfb6ae#32), (false, 0xca0ca25e#32), (false, 0x6bdd9479#32), (false, 0x4538cb8f#32),
   (true, 0x31713206#32), (true, 0x4fd239e0#32), (true, 0x1e899dae#32), (true, 0x053c1431#32)]

/-- powers of x for the first digits of (2^32 - 1) / 257 -/
def chain257 : List (Bool × BitVec 32) :=
  [(false, 0x00000001#32), (false, 0x00000001#32), (false, 0x00000001#32), (false, 0x00000001#32),
   (false, 0x00000001#32), (false, 0x00000001#32), (false, 0x00000001#32), (false, 0x00000001#32),
   (true, 0x00000002#32), (true, 0x00000008#32), (true, 0x00000080#32), (true, 0x00008000#32),
   (true, 0x80000000#32), (true, 0xa6e63d1d#32), (true, 0xf632a5d9#32), (true, 0xb8bfad80#32),
   (false, 0xfad86b72#32), (false, 0x541bab68#32), (false, 0x83ecb1e4#32), (false, 0xfe0ca72f#32),
   (false, 0xd6de9fba#32), (false, 0x494af331#32), (false, 0xe231385d#32), (false, 0xcb2caf7c#32),
   (true, 0x5ee03aa6#32), (true, 0xad9afcb4#32), (true, 0x4c24ee98#32), (true, 0x8769e2a3#32),
   (true, 0xf2eab635#32), (true, 0xea71059f#32), (true, 0x54cf96e1#32), (true, 0x934438ac#32)]

/-- powers of x for the first digits of (2^32 - 1) / 65537 -/
def chain65537 : List (Bool × BitVec 32) :=
  [(false, 0x00000001#32), (false, 0x00000001#32), (false, 0x00000001#32), (false, 0x00000001#32),
   (false, 0x00000001#32), (false, 0x00000001#32), (false, 0x00000001#32), (false, 0x00000001#32),
   (false, 0x00000001#32), (false, 0x00000001#32), (false, 0x00000001#32), (false, 0x00000001#32),
   (false, 0x00000001#32), (false, 0x00000001#32), (false, 0x00000001#32), (false, 0x00000001#32),
   (true, 0x00000002#32), (true, 0x00000008#32), (true, 0x00000080#32), (true, 0x00008000#32),
   (true, 0x80000000#32), (true, 0xa6e63d1d#32), (true, 0xf632a5d9#32), (true, 0xb8bfad80#32),
   (true, 0xf171cb53#32), (true, 0xa95f602e#32), (true, 0xc61f9fc0#32), (true, 0x852231e3#32),
   (true, 0x3800f213#32), (true, 0x03aef159#32), (true, 0x78953fc8#32), (true, 0xfa3ade3b#32)]

theorem iter_full : step0^[2 ^ 32 - 1] 1#32 = 1#32 :=
  checkPow_eq chainFull 0 1#32 (by decide +kernel) rfl
theorem iter_div : step0^[(2 ^ 32 - 1) / 3] 1#32 ≠ 1#32 ∧ step0^[(2 ^ 32 - 1) / 5] 1#32 ≠ 1#32 ∧
    step0^[(2 ^ 32 - 1) / 17] 1#32 ≠ 1#32 ∧ step0^[(2 ^ 32 - 1) / 257] 1#32 ≠ 1#32 ∧
    step0^[(2 ^ 32 - 1) / 65537] 1#32 ≠ 1#32 := by
  have h3 := checkPow_eq chain3 0 1#32 (by decide +kernel) rfl
  have h5 := checkPow_eq chain5 0 1#32 (by decide +kernel) rfl
  have h17 := checkPow_eq chain17 0 1#32 (by decide +kernel) rfl
  have h257 := checkPow_eq chain257 0 1#32 (by decide +kernel) rfl
  have h65537 := checkPow_eq chain65537 0 1#32 (by decide +kernel) rfl
  have e3 : expOf chain3 0 = (2 ^ 32 - 1) / 3 := by decide +kernel
  have e5 : expOf chain5 0 = (2 ^ 32 - 1) / 5 := by decide +kernel
  have e17 : expOf chain17 0 = (2 ^ 32 - 1) / 17 := by decide +kernel
  have e257 : expOf chain257 0 = (2 ^ 32 - 1) / 257 := by decide +kernel
  have e65537 : expOf chain65537 0 = (2 ^ 32 - 1) / 65537 := by decide +kernel
  rw [e3] at h3
  rw [e5] at h5
  rw [e17] at h17
  rw [e257] at h257
  rw [e65537] at h65537
  rw [h3, h5, h17, h257, h65537]
  and_intros <;> decide

theorem prime_dvd_full {p : Nat} (hp : p.Prime) (h : p ∣ 2 ^ 32 - 1) : p = 3 ∨ p = 5 ∨ p = 17 ∨ p = 257 ∨ p = 65537 := by
  have e : 2 ^ 32 - 1 = 3 * 5 * 17 * 257 * 65537 := by decide
  rw [e, hp.dvd_mul, hp.dvd_mul, hp.dvd_mul, hp.dvd_mul] at h
  rcases h with (((h | h) | h) | h) | h
  · exact .inl ((Nat.prime_dvd_prime_iff_eq hp (by norm_num)).1 h)
  · exact .inr (.inl ((Nat.prime_dvd_prime_iff_eq hp (by norm_num)).1 h))
  · exact .inr (.inr (.inl ((Nat.prime_dvd_prime_iff_eq hp (by norm_num)).1 h)))
  · exact .inr (.inr (.inr (.inl ((Nat.prime_dvd_prime_iff_eq hp (by norm_num)).1 h))))
  · exact .inr (.inr (.inr (.inr ((Nat.prime_dvd_prime_iff_eq hp (by norm_num)).1 h))))

/-- The polynomial is primitive. -/
theorem minimalPeriod_step0 : Function.minimalPeriod step0 1#32 = 2 ^ 32 - 1 := by
  have hd : Function.minimalPeriod step0 1#32 ∣ 2 ^ 32 - 1 :=
    Function.IsPeriodicPt.minimalPeriod_dvd iter_full
  obtain ⟨c, hc⟩ := hd
  by_cases h1 : c = 1
  · rw [h1, Nat.mul_one] at hc; exact hc.symm
  · exfalso
    obtain ⟨p, hp, d, hpd⟩ := Nat.exists_prime_and_dvd h1
    have hdiv : Function.minimalPeriod step0 1#32 ∣ (2 ^ 32 - 1) / p := by
      refine ⟨d, ?_⟩
      rw [hc, hpd]
      rw [← Nat.mul_assoc, Nat.mul_comm _ p, Nat.mul_assoc, Nat.mul_div_cancel_left _ hp.pos]
    have hper := (Function.isPeriodicPt_iff_minimalPeriod_dvd).2 hdiv
    have hx : step0^[(2 ^ 32 - 1) / p] 1#32 = 1#32 := hper
    have hcd : p ∣ 2 ^ 32 - 1 := ⟨Function.minimalPeriod step0 1#32 * d, by rw [hc, hpd]; ac_rfl⟩
    obtain ⟨h3, h5, h17, h257, h65537⟩ := iter_div
    rcases prime_dvd_full hp hcd with rfl | rfl | rfl | rfl | rfl
    · exact h3 hx
    · exact h5 hx
    · exact h17 hx
    · exact h257 hx
    · exact h65537 hx

theorem step0_period (d : Nat) : step0^[d] 1#32 = 1#32 ↔ (2 ^ 32 - 1) ∣ d := by
  rw [← minimalPeriod_step0]
  exact Function.isPeriodicPt_iff_minimalPeriod_dvd

end Lib842
