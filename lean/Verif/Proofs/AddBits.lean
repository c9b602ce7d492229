import Verif.Proofs.Writer
/-!
# `add_bits` appends bits (2)
-/

namespace Lib842
open Spec

/-- Number of bytes stored by `putBits`. -/
def putLen (bits : Nat) : Nat := if bits ≤ 8 then 1 else if bits ≤ 16 then 2 else if bits ≤ 32 then 4 else 8

theorem roundUp8_eq (x : Nat) (h1 : 1 ≤ x) (h2 : x ≤ 71) : roundUp8 x = 8 * ((x + 7) / 8) := by
  interval_cases x <;> decide

theorem masked_getLsbD (cur mask : Byte) (b j : Nat) (hm : ∀ j, j < 8 → mask.getLsbD j = decide (8 - b ≤ j)) :
    ((cur &&& mask).setWidth 64 : BitVec 64).getLsbD j = (cur.getLsbD j && decide (8 - b ≤ j)) := by
  rw [BitVec.getLsbD_setWidth, BitVec.getLsbD_and]
  by_cases h : j < 8
  · rw [hm j h, decide_eq_true (by omega)]; simp
  · rw [BitVec.getLsbD_of_ge cur j (by omega)]; simp

theorem putBits_ok (e : Endian) {buf : List Byte} {out b n : Nat} {cur mask : Byte} {d : BitVec 64}
    (hb : b < 8) (hn : 1 ≤ n) (h64 : b + n ≤ 64) (hd : d.toNat < 2 ^ n)
    (hm : ∀ j, j < 8 → mask.getLsbD j = decide (8 - b ≤ j))
    (hfit : out + putLen (b + n) ≤ buf.length) :
    ∃ bs : List Byte, bs.length = putLen (b + n) ∧
      putBits e buf out (b + n) ((cur &&& mask).setWidth 64) (d <<< (roundUp8 (b + n) - (b + n))) =
        some (buf.take out ++ bs ++ buf.drop (out + bs.length)) ∧
      bytesBits bs = (bitsOf 8 cur.toNat).take b ++ bitsOf n d.toNat ++
        List.replicate (8 * putLen (b + n) - (b + n)) false := by
  have hr := roundUp8_eq (b + n) (by omega) (by omega)
  unfold putLen at *
  unfold putBits
  have hdz : ∀ k, n ≤ k → d.getLsbD k = false := by
    intro k hk
    rw [← BitVec.testBit_toNat]
    exact Nat.testBit_lt_two_pow (Nat.lt_of_lt_of_le hd (Nat.pow_le_pow_right (by omega) hk))
  by_cases h8 : b + n ≤ 8
  · rw [if_pos h8] at hfit
    rw [if_pos h8, if_pos h8]
    refine ⟨_, rfl, writeBytes_ok hfit, ?_⟩
    rw [bytesBits_cons, bytesBits_nil, List.append_nil]
    refine packed_bits (K := 1) (by omega) hb hn (by omega) hd ?_
    intro i hi
    rw [BitVec.testBit_toNat, BitVec.getLsbD_setWidth, BitVec.getLsbD_or, masked_getLsbD _ _ b _ hm,
      BitVec.getLsbD_shiftLeft, hr]
    have e1 : 8 * ((b + n + 7) / 8) - (b + n) = 8 * 1 - (b + n) := by omega
    have e2 : i - (8 * 1 - 8) = i := by omega
    simp only [e1, e2, decide_eq_true (show i < 8 by omega), decide_eq_true (show 8 * 1 - 8 ≤ i by omega),
      decide_eq_true (show i < 64 by omega), Bool.true_and]
    congr 2
    by_cases h : i < 8 * 1 - (b + n) <;> simp [h] <;> omega
  rw [if_neg h8] at hfit
  simp only [if_neg h8]
  by_cases h16 : b + n ≤ 16
  · rw [if_pos h16] at hfit
    rw [if_pos h16, if_pos h16]
    refine ⟨_, length_wordBytes16 _ _, writeBytes_ok (by rw [length_wordBytes16]; exact hfit), ?_⟩
    rw [wordBytes16_swap, bytesBits_wordBytes16]
    refine packed_bits (K := 2) (by omega) hb hn (by omega) hd ?_
    intro i hi
    rw [BitVec.testBit_toNat, BitVec.getLsbD_setWidth, BitVec.getLsbD_or, BitVec.getLsbD_shiftLeft,
      masked_getLsbD _ _ b _ hm, BitVec.getLsbD_shiftLeft, hr]
    have e1 : 8 * ((b + n + 7) / 8) - (b + n) = 8 * 2 - (b + n) := by omega
    simp only [e1, decide_eq_true (show i < 16 by omega), decide_eq_true (show i < 64 by omega),
      Bool.true_and]
    congr 1
    · by_cases h : i < 8 <;> simp [h] <;> omega
    · by_cases h : i < 8 * 2 - (b + n) <;> simp [h] <;> omega
  rw [if_neg h16] at hfit
  simp only [if_neg h16]
  by_cases h32 : b + n ≤ 32
  · rw [if_pos h32] at hfit
    rw [if_pos h32]
    by_cases h24 : b + n ≤ 24
    · rw [if_pos h24]
      refine ⟨_, length_wordBytes32 _ _, writeBytes_ok (by rw [length_wordBytes32]; exact hfit), ?_⟩
      rw [wordBytes32_swap, bytesBits_wordBytes32]
      refine packed_bits (K := 4) (by omega) hb hn (by omega) hd ?_
      intro i hi
      rw [BitVec.testBit_toNat, BitVec.getLsbD_setWidth, BitVec.getLsbD_or, BitVec.getLsbD_shiftLeft,
        masked_getLsbD _ _ b _ hm, ← BitVec.shiftLeft_add, BitVec.getLsbD_shiftLeft, hr]
      have e1 : 8 * ((b + n + 7) / 8) - (b + n) + 8 = 8 * 4 - (b + n) := by omega
      simp only [e1, decide_eq_true (show i < 32 by omega), decide_eq_true (show i < 64 by omega),
        Bool.true_and]
      congr 1
      · by_cases h : i < 24 <;> simp [h] <;> omega
      · by_cases h : i < 8 * 4 - (b + n) <;> simp [h] <;> omega
    · rw [if_neg h24, if_pos h32]
      refine ⟨_, length_wordBytes32 _ _, writeBytes_ok (by rw [length_wordBytes32]; exact hfit), ?_⟩
      rw [wordBytes32_swap, bytesBits_wordBytes32]
      refine packed_bits (K := 4) (by omega) hb hn (by omega) hd ?_
      intro i hi
      rw [BitVec.testBit_toNat, BitVec.getLsbD_setWidth, BitVec.getLsbD_or, BitVec.getLsbD_shiftLeft,
        masked_getLsbD _ _ b _ hm, BitVec.getLsbD_shiftLeft, hr]
      have e1 : 8 * ((b + n + 7) / 8) - (b + n) = 8 * 4 - (b + n) := by omega
      simp only [e1, decide_eq_true (show i < 32 by omega), decide_eq_true (show i < 64 by omega),
        Bool.true_and]
      congr 1
      · by_cases h : i < 24 <;> simp [h] <;> omega
      · by_cases h : i < 8 * 4 - (b + n) <;> simp [h] <;> omega
  rw [if_neg h32] at hfit
  simp only [if_neg h32, if_neg (show ¬ b + n ≤ 24 by omega)]
  by_cases h40 : b + n ≤ 40
  · rw [if_pos h40]
    refine ⟨_, length_wordBytes64 _ _, writeBytes_ok (by rw [length_wordBytes64]; exact hfit), ?_⟩
    rw [wordBytes64_swap, bytesBits_wordBytes64]
    refine packed_bits (K := 8) (by omega) hb hn (by omega) hd ?_
    intro i hi
    rw [BitVec.testBit_toNat, BitVec.getLsbD_or, BitVec.getLsbD_shiftLeft,
      masked_getLsbD _ _ b _ hm, ← BitVec.shiftLeft_add, BitVec.getLsbD_shiftLeft, hr]
    have e1 : 8 * ((b + n + 7) / 8) - (b + n) + 24 = 8 * 8 - (b + n) := by omega
    simp only [e1, decide_eq_true (show i < 64 by omega), Bool.true_and]
    congr 1
    · by_cases h : i < 56 <;> simp [h] <;> omega
    · by_cases h : i < 8 * 8 - (b + n) <;> simp [h] <;> omega
  rw [if_neg h40]
  by_cases h48 : b + n ≤ 48
  · rw [if_pos h48]
    refine ⟨_, length_wordBytes64 _ _, writeBytes_ok (by rw [length_wordBytes64]; exact hfit), ?_⟩
    rw [wordBytes64_swap, bytesBits_wordBytes64]
    refine packed_bits (K := 8) (by omega) hb hn (by omega) hd ?_
    intro i hi
    rw [BitVec.testBit_toNat, BitVec.getLsbD_or, BitVec.getLsbD_shiftLeft,
      masked_getLsbD _ _ b _ hm, ← BitVec.shiftLeft_add, BitVec.getLsbD_shiftLeft, hr]
    have e1 : 8 * ((b + n + 7) / 8) - (b + n) + 16 = 8 * 8 - (b + n) := by omega
    simp only [e1, decide_eq_true (show i < 64 by omega), Bool.true_and]
    congr 1
    · by_cases h : i < 56 <;> simp [h] <;> omega
    · by_cases h : i < 8 * 8 - (b + n) <;> simp [h] <;> omega
  rw [if_neg h48]
  by_cases h56 : b + n ≤ 56
  · rw [if_pos h56]
    refine ⟨_, length_wordBytes64 _ _, writeBytes_ok (by rw [length_wordBytes64]; exact hfit), ?_⟩
    rw [wordBytes64_swap, bytesBits_wordBytes64]
    refine packed_bits (K := 8) (by omega) hb hn (by omega) hd ?_
    intro i hi
    rw [BitVec.testBit_toNat, BitVec.getLsbD_or, BitVec.getLsbD_shiftLeft,
      masked_getLsbD _ _ b _ hm, ← BitVec.shiftLeft_add, BitVec.getLsbD_shiftLeft, hr]
    have e1 : 8 * ((b + n + 7) / 8) - (b + n) + 8 = 8 * 8 - (b + n) := by omega
    simp only [e1, decide_eq_true (show i < 64 by omega), Bool.true_and]
    congr 1
    · by_cases h : i < 56 <;> simp [h] <;> omega
    · by_cases h : i < 8 * 8 - (b + n) <;> simp [h] <;> omega
  rw [if_neg h56]
  · refine ⟨_, length_wordBytes64 _ _, writeBytes_ok (by rw [length_wordBytes64]; exact hfit), ?_⟩
    rw [wordBytes64_swap, bytesBits_wordBytes64]
    refine packed_bits (K := 8) (by omega) hb hn (by omega) hd ?_
    intro i hi
    rw [BitVec.testBit_toNat, BitVec.getLsbD_or, BitVec.getLsbD_shiftLeft,
      masked_getLsbD _ _ b _ hm, BitVec.getLsbD_shiftLeft, hr]
    have e1 : 8 * ((b + n + 7) / 8) - (b + n) = 8 * 8 - (b + n) := by omega
    simp only [e1, decide_eq_true (show i < 64 by omega), Bool.true_and]
    congr 1
    · by_cases h : i < 56 <;> simp [h] <;> omega
    · by_cases h : i < 8 * 8 - (b + n) <;> simp [h] <;> omega

theorem genmask_eq (s : Nat) (h1 : 1 ≤ s) (h2 : s ≤ 64) (j : Nat) :
    (genmask (s - 1) 0).getLsbD j = decide (j < s) := by
  unfold genmask
  simp only [BitVec.getLsbD_and, BitVec.getLsbD_shiftLeft, BitVec.getLsbD_allOnes,
    BitVec.getLsbD_ushiftRight]
  rcases Nat.lt_or_ge j s with h | h
  · rw [decide_eq_true h, decide_eq_true (show j < 64 by omega),
      decide_eq_true (show 63 - (s - 1) + j < 64 by omega)]
    simp; omega
  · rw [decide_eq_false (show ¬ j < s by omega),
      decide_eq_false (show ¬ 63 - (s - 1) + j < 64 by omega)]
    simp

theorem and_genmask_toNat (d : BitVec 64) (s : Nat) (h1 : 1 ≤ s) (h2 : s ≤ 64) :
    (d &&& genmask (s - 1) 0).toNat = d.toNat % 2 ^ s := by
  apply Nat.eq_of_testBit_eq
  intro j
  rw [BitVec.testBit_toNat, BitVec.getLsbD_and, genmask_eq s h1 h2, Nat.testBit_mod_two_pow,
    BitVec.testBit_toNat, Bool.and_comm]

theorem Emits.split {f : BitVec 64 → Nat → M Writer Unit} {d : BitVec 64} {n s : Nat}
    (hs1 : 1 ≤ s) (hsn : s < n) (hn : n ≤ 64) (hd : d.toNat < 2 ^ n)
    (hf : ∀ (d' : BitVec 64) (n' : Nat), 1 ≤ n' → n' < n → d'.toNat < 2 ^ n' →
      Emits (f d' n') (bitsOf n' d'.toNat)) :
    Emits (splitAddBits f d n s) (bitsOf n d.toNat) := by
  unfold splitAddBits
  rw [if_neg (by omega)]
  have h1 := hf (d >>> s) (n - s) (by omega) (by omega) (by
    rw [BitVec.toNat_ushiftRight, Nat.shiftRight_eq_div_pow]
    rw [Nat.div_lt_iff_lt_mul (Nat.two_pow_pos s), ← Nat.pow_add]
    rwa [Nat.sub_add_cancel (by omega)])
  have h2 := hf (d &&& genmask (s - 1) 0) s hs1 hsn (by
    rw [and_genmask_toNat d s hs1 (by omega)]; exact Nat.mod_lt _ (Nat.two_pow_pos s))
  have h := h1.bind h2
  have e : bitsOf n d.toNat = bitsOf (n - s) (d >>> s).toNat ++ bitsOf s (d &&& genmask (s - 1) 0).toNat := by
    rw [and_genmask_toNat d s hs1 (by omega), bitsOf_mod, BitVec.toNat_ushiftRight]
    conv => lhs; rw [show n = (n - s) + s by omega, bitsOf_append]
  rw [e]
  exact h

theorem addBitsF_emits (e : Endian) (fuel : Nat) (d : BitVec 64) (n : Nat) (hn1 : 1 ≤ n)
    (hn : n ≤ 64) (hf : n < fuel) (hd : d.toNat < 2 ^ n) :
    Emits (addBitsF e fuel d n) (bitsOf n d.toNat) := by
  induction fuel generalizing d n with
  | zero => omega
  | succ fuel ih =>
    have rec' : ∀ (d' : BitVec 64) (n' : Nat), 1 ≤ n' → n' < n → d'.toNat < 2 ^ n' →
        Emits (addBitsF e fuel d' n') (bitsOf n' d'.toNat) :=
      fun d' n' h1 h2 h3 => ih d' n' h1 (by omega) (by omega) h3
    -- direct case
    have direct : ∀ w : Writer, w.Inv → ¬ w.bit + n > 64 →
        ¬ (w.olen < 8 ∧ w.bit + n > 32 ∧ w.bit + n ≤ 56) →
        ¬ (w.olen < 4 ∧ w.bit + n > 16 ∧ w.bit + n ≤ 24) →
        divRoundUp (w.bit + n) 8 ≤ w.olen →
        ∃ w', addBitsF e (fuel + 1) d n w = .ok () w' ∧ w'.Inv ∧ w'.cap = w.cap ∧
          w'.wbits = w.wbits ++ bitsOf n d.toNat := by
      intro w hw h1 h2 h3 h4
      have hlen := hw.len
      have hbit := hw.bit
      have h4' : (w.bit + n + 7) / 8 ≤ w.olen := by simpa [divRoundUp] using h4
      have hlt : w.out < w.buf.length := by omega
      obtain ⟨mask, hmask, hm⟩ := bmask_get w.bit hbit
      have hput : putLen (w.bit + n) ≤ w.olen := by
        unfold putLen
        split
        · omega
        split
        · omega
        split
        · omega
        · omega
      obtain ⟨bs, hbl, hpb, hbb⟩ := putBits_ok e (buf := w.buf) (out := w.out) (b := w.bit) (n := n)
        (cur := w.buf[w.out]) (mask := mask) (d := d) hbit hn1 (by omega) hd hm (by omega)
      have hpl : w.bit + n ≤ 8 * putLen (w.bit + n) := by
        unfold putLen; split
        · omega
        split
        · omega
        split <;> omega
      obtain ⟨w', hw', hi, hc, hwb⟩ := step_store hw (n := n) (sh := 8 * putLen (w.bit + n) - (w.bit + n))
        (K := putLen (w.bit + n)) (d := d) (cur := w.buf[w.out]) hn1 h4
        (List.getElem?_eq_getElem hlt) hbl hput (by omega) hbb
      refine ⟨w', ?_, hi, hc, hwb⟩
      unfold addBitsF
      rw [M.get_bind_apply]
      simp only [if_neg (show ¬ n > 64 by omega), if_neg h1, if_neg h2, if_neg h3,
        if_neg (show ¬ divRoundUp (w.bit + n) 8 > w.olen by omega)]
      rw [M.access_bind_some (g := fun p : Writer => p.buf[p.out]?) (List.getElem?_eq_getElem hlt),
        M.access_bind_some (g := fun _ => bmask[w.bit]?) hmask]
      rw [M.update_bind_some (s' := { w with buf := w.buf.take w.out ++ bs ++ w.buf.drop (w.out + bs.length) })
          (by simp only [hpb]; rfl), M.modify_apply]
      rw [← hw']
    constructor
    · intro w hw hfit
      simp only [length_bitsOf] at hfit
      have hlen := hw.len
      have hbit := hw.bit
      unfold Writer.P Writer.cap at hfit
      by_cases h1 : w.bit + n > 64
      · have := (Emits.split (s := 32) (by omega) (by omega) hn hd rec').ok w hw
          (by simp only [length_bitsOf]; unfold Writer.P Writer.cap; omega)
        obtain ⟨w', hw', hrest⟩ := this
        refine ⟨w', ?_, hrest⟩
        unfold addBitsF
        rw [M.get_bind_apply]
        simp only [if_neg (show ¬ n > 64 by omega), if_pos h1]
        exact hw'
      by_cases h2 : w.olen < 8 ∧ w.bit + n > 32 ∧ w.bit + n ≤ 56
      · have := (Emits.split (s := 16) (by omega) (by omega) hn hd rec').ok w hw
          (by simp only [length_bitsOf]; unfold Writer.P Writer.cap; omega)
        obtain ⟨w', hw', hrest⟩ := this
        refine ⟨w', ?_, hrest⟩
        unfold addBitsF
        rw [M.get_bind_apply]
        simp only [if_neg (show ¬ n > 64 by omega), if_neg h1, if_pos h2]
        exact hw'
      by_cases h3 : w.olen < 4 ∧ w.bit + n > 16 ∧ w.bit + n ≤ 24
      · have := (Emits.split (s := 8) (by omega) (by omega) hn hd rec').ok w hw
          (by simp only [length_bitsOf]; unfold Writer.P Writer.cap; omega)
        obtain ⟨w', hw', hrest⟩ := this
        refine ⟨w', ?_, hrest⟩
        unfold addBitsF
        rw [M.get_bind_apply]
        simp only [if_neg (show ¬ n > 64 by omega), if_neg h1, if_neg h2, if_pos h3]
        exact hw'
      exact direct w hw h1 h2 h3 (by unfold divRoundUp; omega)
    · intro w hw hfull
      simp only [length_bitsOf] at hfull
      have hlen := hw.len
      have hbit := hw.bit
      unfold Writer.P Writer.cap at hfull
      by_cases h1 : w.bit + n > 64
      · have := (Emits.split (s := 32) (by omega) (by omega) hn hd rec').full w hw
          (by simp only [length_bitsOf]; unfold Writer.P Writer.cap; omega)
        obtain ⟨w', hw', hrest⟩ := this
        refine ⟨w', ?_, hrest⟩
        unfold addBitsF
        rw [M.get_bind_apply]
        simp only [if_neg (show ¬ n > 64 by omega), if_pos h1]
        exact hw'
      by_cases h2 : w.olen < 8 ∧ w.bit + n > 32 ∧ w.bit + n ≤ 56
      · have := (Emits.split (s := 16) (by omega) (by omega) hn hd rec').full w hw
          (by simp only [length_bitsOf]; unfold Writer.P Writer.cap; omega)
        obtain ⟨w', hw', hrest⟩ := this
        refine ⟨w', ?_, hrest⟩
        unfold addBitsF
        rw [M.get_bind_apply]
        simp only [if_neg (show ¬ n > 64 by omega), if_neg h1, if_pos h2]
        exact hw'
      by_cases h3 : w.olen < 4 ∧ w.bit + n > 16 ∧ w.bit + n ≤ 24
      · have := (Emits.split (s := 8) (by omega) (by omega) hn hd rec').full w hw
          (by simp only [length_bitsOf]; unfold Writer.P Writer.cap; omega)
        obtain ⟨w', hw', hrest⟩ := this
        refine ⟨w', ?_, hrest⟩
        unfold addBitsF
        rw [M.get_bind_apply]
        simp only [if_neg (show ¬ n > 64 by omega), if_neg h1, if_neg h2, if_pos h3]
        exact hw'
      refine ⟨w, ?_, hw, rfl, Nat.le_refl _⟩
      unfold addBitsF
      rw [M.get_bind_apply]
      simp only [if_neg (show ¬ n > 64 by omega), if_neg h1, if_neg h2, if_neg h3]
      rw [if_pos (by unfold divRoundUp; omega)]
      rfl

theorem addBits_emits (e : Endian) (d : BitVec 64) (n : Nat) (hn1 : 1 ≤ n)
    (hn : n ≤ 64) (hd : d.toNat < 2 ^ n) :
    Emits (addBits e d n) (bitsOf n d.toNat) :=
  addBitsF_emits e (n + 1) d n hn1 hn (by omega) hd

end Lib842
