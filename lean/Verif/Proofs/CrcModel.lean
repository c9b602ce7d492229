import Verif.Proofs.CrcSpec
import Verif.Model.Crc
/-!
# `crc32_be` computes the CRC
-/

namespace Lib842
open Spec

theorem crcRow0_eq : crcRow0 = (List.range 256).map (fun i => F (BitVec.ofNat 32 i <<< 24)) := by
  decide +kernel
theorem crcRow1_eq : crcRow1 = crcRow0.map F := by decide +kernel
theorem crcRow2_eq : crcRow2 = crcRow1.map F := by decide +kernel
theorem crcRow3_eq : crcRow3 = crcRow2.map F := by decide +kernel
theorem crcRow4_eq : crcRow4 = crcRow3.map F := by decide +kernel
theorem crcRow5_eq : crcRow5 = crcRow4.map F := by decide +kernel
theorem crcRow6_eq : crcRow6 = crcRow5.map F := by decide +kernel
theorem crcRow7_eq : crcRow7 = crcRow6.map F := by decide +kernel

theorem crcTab_eq (e : Endian) (k i : Nat) (hk : k < 8) (hi : i < 256) :
    crcTab e k i = some (swapBe32 e (F^[k + 1] (BitVec.ofNat 32 i <<< 24))) := by
  have hr : crcRows[k]? = some ((List.range 256).map fun i => F^[k + 1] (BitVec.ofNat 32 i <<< 24)) := by
    interval_cases k <;>
    simp only [crcRows, crcRow7_eq, crcRow6_eq, crcRow5_eq, crcRow4_eq, crcRow3_eq, crcRow2_eq,
      crcRow1_eq, crcRow0_eq, List.map_map] <;> rfl
  simp [crcTab, hr, hi]

theorem swap32_xor (a b : BitVec 32) : swap32 (a ^^^ b) = swap32 a ^^^ swap32 b := by
  apply BitVec.eq_of_getLsbD_eq
  intro i hi
  simp only [swap32, BitVec.getLsbD_or, BitVec.getLsbD_shiftLeft, BitVec.getLsbD_and,
    BitVec.getLsbD_ushiftRight, BitVec.getLsbD_xor]
  interval_cases i <;> simp

theorem swapBe32_xor (e) (a b : BitVec 32) :
    swapBe32 e (a ^^^ b) = swapBe32 e a ^^^ swapBe32 e b := by
  cases e
  · exact swap32_xor a b
  · rfl

theorem swap32_swap32 (x : BitVec 32) : swap32 (swap32 x) = x := by
  have hx : x = x.extractLsb' 24 8 ++ x.extractLsb' 16 8 ++ x.extractLsb' 8 8 ++
      x.extractLsb' 0 8 := by
    apply BitVec.eq_of_getLsbD_eq
    intro i hi
    simp only [BitVec.getLsbD_append, BitVec.getLsbD_extractLsb']
    interval_cases i <;> simp
  generalize x.extractLsb' 24 8 = a5, x.extractLsb' 16 8 = a6,
    x.extractLsb' 8 8 = a7, x.extractLsb' 0 8 = a8 at hx
  subst hx
  rw [swap32_append, swap32_append]

theorem swapBe32_swapBe32 (e) (x : BitVec 32) : swapBe32 e (swapBe32 e x) = x := by
  cases e
  · exact swap32_swap32 x
  · rfl

theorem swap32_shl8 (c : BitVec 32) : swap32 (c <<< 8) = swap32 c >>> 8 := by
  apply BitVec.eq_of_getLsbD_eq
  intro i hi
  simp only [swap32, BitVec.getLsbD_or, BitVec.getLsbD_shiftLeft, BitVec.getLsbD_and,
    BitVec.getLsbD_ushiftRight]
  interval_cases i <;> simp

theorem swap32_and (c : BitVec 32) : swap32 c &&& 255#32 = (c >>> 24) &&& 255#32 := by
  apply BitVec.eq_of_getLsbD_eq
  intro i hi
  simp only [swap32, BitVec.getLsbD_or, BitVec.getLsbD_shiftLeft, BitVec.getLsbD_and,
    BitVec.getLsbD_ushiftRight]
  interval_cases i <;> simp

theorem swap32_and8 (c : BitVec 32) : (swap32 c >>> 8) &&& 255#32 = (c >>> 16) &&& 255#32 := by
  apply BitVec.eq_of_getLsbD_eq
  intro i hi
  simp only [swap32, BitVec.getLsbD_or, BitVec.getLsbD_shiftLeft, BitVec.getLsbD_and,
    BitVec.getLsbD_ushiftRight]
  interval_cases i <;> simp

theorem swap32_and16 (c : BitVec 32) : (swap32 c >>> 16) &&& 255#32 = (c >>> 8) &&& 255#32 := by
  apply BitVec.eq_of_getLsbD_eq
  intro i hi
  simp only [swap32, BitVec.getLsbD_or, BitVec.getLsbD_shiftLeft, BitVec.getLsbD_and,
    BitVec.getLsbD_ushiftRight]
  interval_cases i <;> simp

theorem swap32_and24 (c : BitVec 32) : (swap32 c >>> 24) &&& 255#32 = c &&& 255#32 := by
  apply BitVec.eq_of_getLsbD_eq
  intro i hi
  simp only [swap32, BitVec.getLsbD_or, BitVec.getLsbD_shiftLeft, BitVec.getLsbD_and,
    BitVec.getLsbD_ushiftRight]
  interval_cases i <;> simp

theorem and255_lt (w : BitVec 32) : (w &&& 255#32).toNat < 256 := by
  rw [BitVec.toNat_and]
  exact Nat.lt_of_le_of_lt Nat.and_le_right (by decide)

theorem ofNat_and255 (w : BitVec 32) : BitVec.ofNat 32 (w &&& 255#32).toNat = w &&& 255#32 := by simp

theorem byteIdx (c : BitVec 32) (x : Byte) :
    (((c >>> 24) ^^^ x.setWidth 32) &&& 255#32) = ((c ^^^ (x.setWidth 32 <<< 24)) >>> 24) := by
  apply BitVec.eq_of_getLsbD_eq
  intro i hi
  simp only [BitVec.getLsbD_xor, BitVec.getLsbD_shiftLeft, BitVec.getLsbD_and,
    BitVec.getLsbD_ushiftRight, BitVec.getLsbD_setWidth]
  interval_cases i <;> simp

theorem byteIdx_le (c : BitVec 32) (x : Byte) :
    ((swap32 c ^^^ x.setWidth 32) &&& 255#32) = ((c ^^^ (x.setWidth 32 <<< 24)) >>> 24) := by
  rw [← byteIdx]
  apply BitVec.eq_of_getLsbD_eq
  intro i hi
  simp only [swap32, BitVec.getLsbD_or, BitVec.getLsbD_xor, BitVec.getLsbD_shiftLeft, BitVec.getLsbD_and,
    BitVec.getLsbD_ushiftRight, BitVec.getLsbD_setWidth]
  interval_cases i <;> simp

theorem shl8_byte (c : BitVec 32) (x : Byte) : (c ^^^ (x.setWidth 32 <<< 24)) <<< 8 = c <<< 8 := by
  apply BitVec.eq_of_getLsbD_eq
  intro i hi
  simp only [BitVec.getLsbD_xor, BitVec.getLsbD_shiftLeft, BitVec.getLsbD_setWidth]
  interval_cases i <;> simp

theorem feed_byte_tab (c : BitVec 32) (x : Byte) :
    feed c (bitsOf 8 x.toNat) =
      F (((c ^^^ (x.setWidth 32 <<< 24)) >>> 24) <<< 24) ^^^ (c <<< 8) := by
  rw [feed_byte, F_byte, shl8_byte]

theorem doCrc_eq (e : Endian) (c : BitVec 32) (x : Byte) :
    doCrc e (swapBe32 e c) x = some (swapBe32 e (feed c (bitsOf 8 x.toNat))) := by
  rw [feed_byte_tab, swapBe32_xor]
  cases e
  · simp only [doCrc, swapBe32, byteIdx_le]
    rw [crcTab_eq _ _ _ (by omega) (by rw [← byteIdx_le]; exact and255_lt _)]
    simp only [BitVec.ofNat_toNat, BitVec.setWidth_eq, swap32_shl8]
    rfl
  · simp only [doCrc, swapBe32, byteIdx]
    rw [crcTab_eq _ _ _ (by omega) (by rw [← byteIdx]; exact and255_lt _)]
    simp only [BitVec.ofNat_toNat, BitVec.setWidth_eq]
    rfl

theorem doCrcWord_eq (e : Endian) (n : Nat) (hn : n ≤ 4) (q : BitVec 32) :
    doCrcWord e n (swapBe32 e q) = some (swapBe32 e (F^[n + 4] q)) := by
  rw [F_word]
  cases e
  · simp only [doCrcWord, swapBe32, swap32_and, swap32_and8, swap32_and16, swap32_and24]
    rw [crcTab_eq _ _ _ (by omega) (and255_lt _), crcTab_eq _ _ _ (by omega) (and255_lt _),
      crcTab_eq _ _ _ (by omega) (and255_lt _), crcTab_eq _ _ _ (by omega) (and255_lt _)]
    simp only [ofNat_and255, swapBe32, swap32_xor]
    rfl
  · simp only [doCrcWord, swapBe32]
    rw [crcTab_eq _ _ _ (by omega) (and255_lt _), crcTab_eq _ _ _ (by omega) (and255_lt _),
      crcTab_eq _ _ _ (by omega) (and255_lt _), crcTab_eq _ _ _ (by omega) (and255_lt _)]
    simp only [ofNat_and255, swapBe32, Option.bind_eq_bind, Option.bind_some, Option.pure_def]
    generalize F^[n + 4] _ = a, F^[n + 3] _ = b, F^[n + 2] _ = c, F^[n + 1] _ = d
    congr 1
    ac_rfl

theorem bytesBits_slice_succ (m : List Byte) (i n : Nat) (h : i < m.length) :
    bytesBits ((m.drop i).take (n + 1)) = bitsOf 8 (m[i]).toNat ++ bytesBits ((m.drop (i + 1)).take n) := by
  rw [List.drop_eq_getElem_cons h, List.take_succ_cons, bytesBits_cons]

theorem crcTail_eq (e : Endian) (m : List Byte) (n i : Nat) (c : BitVec 32) (h : i + n ≤ m.length) :
    crcTail e m n i (swapBe32 e c) = some (swapBe32 e (feed c (bytesBits ((m.drop i).take n)))) := by
  induction n generalizing i c with
  | zero => simp [crcTail]
  | succ n ih =>
    have hi : i < m.length := by omega
    simp only [crcTail, List.getElem?_eq_getElem hi, Option.bind_eq_bind, Option.bind_some, doCrc_eq]
    rw [ih _ _ (by omega), bytesBits_slice_succ m i n hi, feed_append]

theorem crcAlign_eq (e : Endian) (addr : Nat) (m : List Byte) (len i : Nat) (c : BitVec 32)
    (h : i + len ≤ m.length) :
    ∃ k, k ≤ len ∧ crcAlign e addr m len i (swapBe32 e c) =
      some (swapBe32 e (feed c (bytesBits ((m.drop i).take k))), i + k, len - k) := by
  induction len generalizing i c with
  | zero => exact ⟨0, by omega, by simp [crcAlign]⟩
  | succ len ih =>
    unfold crcAlign
    split
    · exact ⟨0, by omega, by simp⟩
    · have hi : i < m.length := by omega
      obtain ⟨k, hk, he⟩ := ih (i + 1) (feed c (bitsOf 8 (m[i]).toNat)) (by omega)
      refine ⟨k + 1, by omega, ?_⟩
      simp only [List.getElem?_eq_getElem hi, Option.bind_eq_bind, Option.bind_some, doCrc_eq]
      rw [he, bytesBits_slice_succ m i k hi, feed_append]
      congr 3
      · omega
      · omega

theorem crcWords_eq (e : Endian) (m : List Byte) (n i : Nat) (c : BitVec 32)
    (h : i + 8 * n ≤ m.length) :
    crcWords e m n i (swapBe32 e c) =
      some (swapBe32 e (feed c (bytesBits ((m.drop i).take (8 * n)))), i + 8 * n) := by
  induction n generalizing i c with
  | zero => simp [crcWords]
  | succ n ih =>
    obtain ⟨v0, hv0, hb0⟩ := load32_ok e (m := m) (i := i) (by omega)
    obtain ⟨v1, hv1, hb1⟩ := load32_ok e (m := m) (i := i + 4) (by omega)
    have e0 : swapBe32 e c ^^^ v0 = swapBe32 e (c ^^^ swapBe32 e v0) := by
      rw [swapBe32_xor, swapBe32_swapBe32]
    have e1 : v1 = swapBe32 e (swapBe32 e v1) := by rw [swapBe32_swapBe32]
    simp only [crcWords, hv0, hv1, Option.bind_eq_bind, Option.bind_some, e0, doCrcWord_eq e 4 (by omega)]
    rw [e1, doCrcWord_eq e 0 (by omega)]
    simp only [Option.bind_some]
    rw [← swapBe32_xor, ih _ _ (by omega)]
    have hsplit : bytesBits ((m.drop i).take (8 * (n + 1))) =
        bitsOf 32 (swapBe32 e v0).toNat ++ (bitsOf 32 (swapBe32 e v1).toNat ++
          bytesBits ((m.drop (i + 8)).take (8 * n))) := by
      rw [hb0, hb1, slice_bits, slice_bits]
      have t1 : 8 * (i + 4) = 32 + 8 * i := by omega
      have t2 : 8 * (i + 8) = 32 + (32 + 8 * i) := by omega
      have t3 : 8 * (8 * (n + 1)) = 32 + (32 + 8 * (8 * n)) := by omega
      rw [t1, t2, t3]
      rw [List.take_add, List.drop_drop, List.take_add, List.drop_drop]
      simp only [Nat.add_comm]
    rw [hsplit, feed_append, feed_append, feed_word, feed_word]
    refine congrArg some (Prod.ext ?_ ?_)
    · rw [F_iter_xor 4 _ (swapBe32 e v1), ← Function.iterate_add_apply]
    · show i + 8 + 8 * n = i + 8 * (n + 1)
      omega

theorem crc32be_eq (e : Endian) (addr : Nat) (m : List Byte) (len : Nat) (h : len ≤ m.length) :
    crc32be e addr 0#32 m len = some (crc (m.take len)) := by
  obtain ⟨k, hk, ha⟩ := crcAlign_eq e addr m len 0 0#32 (by omega)
  have h0 : swapBe32 e 0#32 = 0#32 := by cases e <;> decide
  rw [h0] at ha
  simp only [crc32be, ha, Option.bind_eq_bind, Option.bind_some]
  rw [crcWords_eq e m _ _ _ (by omega)]
  simp only [Option.bind_some]
  rw [crcTail_eq e m _ _ _ (by omega)]
  simp only [Option.bind_some, swapBe32_swapBe32]
  show some _ = some _
  congr 1
  rw [crc_eq_feed, ← feed_append, ← feed_append, ← bytesBits_append, ← bytesBits_append]
  congr 2
  have e1 : len = k + (8 * ((len - k) / 8) + (len - k) % 8) := by omega
  conv => rhs; rw [e1]
  rw [List.take_add, List.take_add, List.drop_drop]
  simp

end Lib842
