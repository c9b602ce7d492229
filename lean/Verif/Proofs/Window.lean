import Verif.Model.BitWindow
import Verif.Proofs.Words
/-!
# The bit window of the word-oriented decoders
-/

namespace Lib842
open Spec

/-- `buffer` holds the `bits`-bit number `a`, left aligned. -/
structure Win (buffer : BitVec 64) (bits a : Nat) : Prop where
  lt : bits < 64
  a_lt : a < 2 ^ bits
  val : buffer.toNat = a * 2 ^ (64 - bits)

theorem Win.zero : Win 0#64 0 0 := ⟨by omega, by omega, by simp⟩

theorem Win.det {b : BitVec 64} {n a a' : Nat} (h : Win b n a) (h' : Win b n a') : a = a' := by
  have := h.val.symm.trans h'.val
  exact Nat.eq_of_mul_eq_mul_right (Nat.two_pow_pos _) this

theorem cshr_some {x : BitVec 64} {k : Int} {m : Nat} (hk : k = m) (hm : m < 64) :
    cshr x k = some (x >>> m) := by
  subst hk
  unfold cshr
  rw [if_pos (by omega)]; simp

theorem cshl_some {x : BitVec 64} {k : Int} {m : Nat} (hk : k = m) (hm : m < 64) :
    cshl x k = some (x <<< m) := by
  subst hk
  unfold cshl
  rw [if_pos (by omega)]; simp

/-- Arithmetic of a left shift that drops the top `n` bits of a left-aligned number. -/
theorem shl_mod (a b n : Nat) (h : b + n ≤ 64) :
    (a * 2 ^ (64 - (b + n))) * 2 ^ n % 2 ^ 64 = (a % 2 ^ b) * 2 ^ (64 - b) := by
  have e1 : (a * 2 ^ (64 - (b + n))) * 2 ^ n = a * 2 ^ (64 - b) := by
    rw [Nat.mul_assoc, ← Nat.pow_add]; congr 2; omega
  have e2 : (2 : Nat) ^ 64 = 2 ^ b * 2 ^ (64 - b) := by rw [← Nat.pow_add]; congr 1; omega
  rw [e1, e2, Nat.mul_mod_mul_right]

theorem winHit_ok {b : BitVec 64} {bits a n : Nat} (h : Win b bits a) (hn1 : 1 ≤ n) (hn : n ≤ bits) :
    ∃ v b', winHit b bits n = some (v, b', bits - n) ∧ v.toNat = a >>> (bits - n) ∧ v.toNat < 2 ^ n ∧
      Win b' (bits - n) (a % 2 ^ (bits - n)) := by
  have hlt := h.lt
  have hval := h.val
  have hv : (b >>> (64 - n)).toNat = a >>> (bits - n) := by
    rw [BitVec.toNat_ushiftRight, hval, Nat.shiftRight_eq_div_pow, Nat.shiftRight_eq_div_pow,
      show 64 - n = (64 - bits) + (bits - n) by omega, Nat.pow_add, Nat.mul_comm a,
      Nat.mul_div_mul_left _ _ (Nat.two_pow_pos _)]
  refine ⟨b >>> (64 - n), b <<< n, ?_, hv, ?_, ⟨by omega, Nat.mod_lt _ (Nat.two_pow_pos _), ?_⟩⟩
  · unfold winHit
    rw [cshr_some (m := 64 - n) (by omega) (by omega), cshl_some (m := n) rfl (by omega)]
  · rw [hv, Nat.shiftRight_eq_div_pow, Nat.div_lt_iff_lt_mul (Nat.two_pow_pos _), ← Nat.pow_add,
      show n + (bits - n) = bits by omega]
    exact h.a_lt
  · rw [BitVec.toNat_shiftLeft, Nat.shiftLeft_eq, hval]
    have := shl_mod a (bits - n) n (by omega)
    rw [show bits - n + n = bits by omega] at this
    exact this

theorem winMiss_ok {b w : BitVec 64} {bits a n : Nat} (h : Win b bits a) (hn1 : bits < n) (hn : n ≤ 64) :
    ∃ v b', winMiss b bits n w = some (v, b', bits + 64 - n) ∧
      v.toNat = a * 2 ^ (n - bits) + w.toNat >>> (64 - (n - bits)) ∧
      v.toNat < 2 ^ n ∧ Win b' (bits + 64 - n) (w.toNat % 2 ^ (bits + 64 - n)) := by
  have hlt := h.lt
  have hval := h.val
  obtain ⟨k, rfl⟩ : ∃ k, n = bits + k := ⟨n - bits, by omega⟩
  have hk1 : 1 ≤ k := by omega
  rw [show bits + k - bits = k by omega, show bits + 64 - (bits + k) = 64 - k by omega]
  have hv : (b >>> (64 - (bits + k))).toNat = a * 2 ^ k := by
    rw [BitVec.toNat_ushiftRight, hval, Nat.shiftRight_eq_div_pow,
      show 64 - bits = k + (64 - (bits + k)) by omega, Nat.pow_add, ← Nat.mul_assoc,
      Nat.mul_div_cancel _ (Nat.two_pow_pos _)]
  have hw : w.toNat >>> (64 - k) < 2 ^ k := by
    rw [Nat.shiftRight_eq_div_pow, Nat.div_lt_iff_lt_mul (Nat.two_pow_pos _), ← Nat.pow_add,
      show k + (64 - k) = 64 by omega]
    exact w.isLt
  have hor : ((b >>> (64 - (bits + k))) ||| (w >>> (64 - k))).toNat =
      a * 2 ^ k + w.toNat >>> (64 - k) := by
    rw [BitVec.toNat_or, hv, BitVec.toNat_ushiftRight, Nat.mul_comm,
      Nat.two_pow_add_eq_or_of_lt hw]
  refine ⟨(b >>> (64 - (bits + k))) ||| (w >>> (64 - k)), w <<< (k - 1) <<< 1 *
      (if 64 - k > 0 then 1#64 else 0#64), ?_, hor, ?_, ⟨by omega, Nat.mod_lt _ (Nat.two_pow_pos _), ?_⟩⟩
  · unfold winMiss
    rw [cshr_some (m := 64 - (bits + k)) (by omega) (by omega),
      cshr_some (m := 64 - k) (by omega) (by omega),
      cshl_some (m := k - 1) (by omega) (by omega)]
    simp only [show bits + 64 - (bits + k) = 64 - k by omega]
  · rw [hor, Nat.pow_add]
    have := h.a_lt
    calc a * 2 ^ k + w.toNat >>> (64 - k) < a * 2 ^ k + 2 ^ k := by omega
      _ = (a + 1) * 2 ^ k := by rw [Nat.succ_mul]
      _ ≤ 2 ^ bits * 2 ^ k := Nat.mul_le_mul_right _ (by omega)
  · rw [← BitVec.shiftLeft_add, show k - 1 + 1 = k by omega]
    by_cases hk : k = 64
    · subst hk
      simp [Nat.mod_one]
    · rw [if_pos (by omega), BitVec.mul_one, BitVec.toNat_shiftLeft, Nat.shiftLeft_eq]
      have := shl_mod w.toNat (64 - k) k (by omega)
      rw [show 64 - k + k = 64 by omega] at this
      simpa using this

/-- The bits in the window. -/
def winBits (buffer : BitVec 64) (bits : Nat) : List Bool := bitsOf bits (buffer.toNat >>> (64 - bits))

theorem Win.bits {b : BitVec 64} {bits a : Nat} (h : Win b bits a) : winBits b bits = bitsOf bits a := by
  unfold winBits
  rw [h.val, Nat.shiftRight_eq_div_pow, Nat.mul_div_cancel _ (Nat.two_pow_pos _)]

/-- The window is well formed. -/
def WinOk (buffer : BitVec 64) (bits : Nat) : Prop := ∃ a, Win buffer bits a

/-- Hit: the value is the next `n` bits of the window. -/
theorem winHit_bits {b : BitVec 64} {bits n : Nat} (h : WinOk b bits) (hn1 : 1 ≤ n) (hn : n ≤ bits) :
    ∃ v b', winHit b bits n = some (v, b', bits - n) ∧ v.toNat < 2 ^ n ∧ WinOk b' (bits - n) ∧
      winBits b bits = bitsOf n v.toNat ++ winBits b' (bits - n) := by
  obtain ⟨a, h⟩ := h
  obtain ⟨v, b', h1, h2, h3, h4⟩ := winHit_ok h hn1 hn
  refine ⟨v, b', h1, h3, ⟨_, h4⟩, ?_⟩
  rw [h.bits, h4.bits, h2, bitsOf_mod]
  conv => lhs; rw [show bits = n + (bits - n) by omega]
  rw [bitsOf_append]

/-- Miss: the value is the window followed by the first bits of the new word. -/
theorem winMiss_bits {b w : BitVec 64} {bits n : Nat} (h : WinOk b bits) (hn1 : bits < n) (hn : n ≤ 64) :
    ∃ v b', winMiss b bits n w = some (v, b', bits + 64 - n) ∧ v.toNat < 2 ^ n ∧
      WinOk b' (bits + 64 - n) ∧
      winBits b bits ++ bitsOf 64 w.toNat = bitsOf n v.toNat ++ winBits b' (bits + 64 - n) := by
  obtain ⟨a, h⟩ := h
  obtain ⟨v, b', h1, h2, h3, h4⟩ := winMiss_ok (w := w) h hn1 hn
  refine ⟨v, b', h1, h3, ⟨_, h4⟩, ?_⟩
  rw [h.bits, h4.bits, h2, bitsOf_mod]
  have hlt := h.lt
  obtain ⟨k, rfl⟩ : ∃ k, n = bits + k := ⟨n - bits, by omega⟩
  rw [show bits + k - bits = k by omega, show bits + 64 - (bits + k) = 64 - k by omega]
  have hsp : bitsOf 64 w.toNat = bitsOf k (w.toNat >>> (64 - k)) ++ bitsOf (64 - k) w.toNat := by
    rw [← bitsOf_append]; congr 1; omega
  rw [hsp, bitsOf_append bits k]
  have hw : w.toNat >>> (64 - k) < 2 ^ k := by
    rw [Nat.shiftRight_eq_div_pow, Nat.div_lt_iff_lt_mul (Nat.two_pow_pos _), ← Nat.pow_add,
      show k + (64 - k) = 64 by omega]
    exact w.isLt
  have e1 : (a * 2 ^ k + w.toNat >>> (64 - k)) >>> k = a := by
    rw [Nat.shiftRight_eq_div_pow, Nat.mul_comm, Nat.mul_add_div (Nat.two_pow_pos _),
      Nat.div_eq_of_lt hw, Nat.add_zero]
  have e2 : bitsOf k (a * 2 ^ k + w.toNat >>> (64 - k)) = bitsOf k (w.toNat >>> (64 - k)) := by
    rw [← bitsOf_mod, Nat.mul_comm, Nat.mul_add_mod, bitsOf_mod]
  rw [e1, e2, List.append_assoc]

@[simp] theorem length_winBits (b : BitVec 64) (bits : Nat) : (winBits b bits).length = bits := by
  simp [winBits]

/-- `load64` of the `k`-th word. -/
theorem load64_word (e : Endian) {m : List Byte} {k : Nat} (h : 8 * k + 8 ≤ m.length) :
    ∃ v, load64 e m (8 * k) = some v ∧
      ∀ (t : Nat), 8 * k + 8 ≤ t →
        (bytesBits (m.take t)).drop (64 * k) =
          bitsOf 64 (swapBe64 e v).toNat ++ (bytesBits (m.take t)).drop (64 * (k + 1)) := by
  obtain ⟨v, h1, h2⟩ := load64_ok e h
  refine ⟨v, h1, fun t ht => ?_⟩
  rw [h2]
  have : ((bytesBits m).drop (8 * (8 * k))).take 64 = ((bytesBits (m.take t)).drop (64 * k)).take 64 := by
    rw [bytesBits_take, List.drop_take, List.take_take, ← Nat.mul_assoc]
    congr 1
    omega
  rw [this, show 64 * (k + 1) = 64 * k + 64 by omega, ← List.drop_drop, List.take_append_drop]

end Lib842
