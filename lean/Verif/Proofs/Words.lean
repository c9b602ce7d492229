import Verif.Proofs.Bits
/-!
# Loads and stores in terms of bit strings
-/

namespace Lib842
open Spec

/-- The `k` bytes at offset `i` as a big-endian number. -/
def beVal (m : List Byte) (i k : Nat) : Nat := bitsVal (((bytesBits m).drop (8 * i)).take (8 * k))

theorem readBytes_ok {m : List Byte} {i k : Nat} (h : i + k ≤ m.length) :
    readBytes m i k = some ((m.drop i).take k) := by simp [readBytes, h]

theorem readBytes_none {m : List Byte} {i k : Nat} (h : ¬ i + k ≤ m.length) :
    readBytes m i k = none := by simp [readBytes, h]

theorem slice_bits (m : List Byte) (i k : Nat) :
    bytesBits ((m.drop i).take k) = ((bytesBits m).drop (8 * i)).take (8 * k) := by
  rw [bytesBits_take, bytesBits_drop]

theorem eq_bitsVal {n x : Nat} {l : List Bool} (h : bitsOf n x = l) (hx : x < 2 ^ n) :
    x = bitsVal l := by
  rw [← h, bitsVal_bitsOf, Nat.mod_eq_of_lt hx]

theorem list_len2 {α} {l : List α} (h : l.length = 2) : ∃ a b, l = [a, b] := by
  match l, h with
  | [a, b], _ => exact ⟨a, b, rfl⟩

theorem list_len4 {α} {l : List α} (h : l.length = 4) : ∃ a b c d, l = [a, b, c, d] := by
  match l, h with
  | [a, b, c, d], _ => exact ⟨a, b, c, d, rfl⟩

theorem list_len8 {α} {l : List α} (h : l.length = 8) :
    ∃ a b c d e f g k, l = [a, b, c, d, e, f, g, k] := by
  match l, h with
  | [a, b, c, d, e, f, g, k], _ => exact ⟨a, b, c, d, e, f, g, k, rfl⟩

theorem load16_ok (e : Endian) {m : List Byte} {i : Nat} (h : i + 2 ≤ m.length) :
    ∃ v, load16 e m i = some v ∧
      bitsOf 16 (swapBe16 e v).toNat = ((bytesBits m).drop (8 * i)).take 16 := by
  have hl : ((m.drop i).take 2).length = 2 := by simp; omega
  obtain ⟨a, b, hs⟩ := list_len2 hl
  have hb := slice_bits m i 2
  rw [hs] at hb
  unfold load16
  rw [readBytes_ok h, hs]
  refine ⟨_, rfl, ?_⟩
  refine Eq.trans ?_ hb
  have key : bitsOf (8 + 8) (a ++ b).toNat = bytesBits [a, b] := by
    rw [bitsOf_bv_append]; simp
  cases e
  · simp only [swapBe16, swap16_append]; exact key
  · simp only [swapBe16]; exact key

theorem load32_ok (e : Endian) {m : List Byte} {i : Nat} (h : i + 4 ≤ m.length) :
    ∃ v, load32 e m i = some v ∧
      bitsOf 32 (swapBe32 e v).toNat = ((bytesBits m).drop (8 * i)).take 32 := by
  have hl : ((m.drop i).take 4).length = 4 := by simp; omega
  obtain ⟨a, b, c, d, hs⟩ := list_len4 hl
  have hb := slice_bits m i 4
  rw [hs] at hb
  unfold load32
  rw [readBytes_ok h, hs]
  refine ⟨_, rfl, ?_⟩
  refine Eq.trans ?_ hb
  have key : bitsOf (8 + 8 + 8 + 8) (a ++ b ++ c ++ d).toNat = bytesBits [a, b, c, d] := by
    rw [bitsOf_bv_append, bitsOf_bv_append, bitsOf_bv_append]
    simp
  cases e
  · simp only [swapBe32, swap32_append]; exact key
  · simp only [swapBe32]; exact key

theorem load64_ok (e : Endian) {m : List Byte} {i : Nat} (h : i + 8 ≤ m.length) :
    ∃ v, load64 e m i = some v ∧
      bitsOf 64 (swapBe64 e v).toNat = ((bytesBits m).drop (8 * i)).take 64 := by
  have hl : ((m.drop i).take 8).length = 8 := by simp; omega
  obtain ⟨a, b, c, d, f, g, p, q, hs⟩ := list_len8 hl
  have hb := slice_bits m i 8
  rw [hs] at hb
  unfold load64
  rw [readBytes_ok h, hs]
  refine ⟨_, rfl, ?_⟩
  refine Eq.trans ?_ hb
  have key : bitsOf (8 + 8 + 8 + 8 + 8 + 8 + 8 + 8) (a ++ b ++ c ++ d ++ f ++ g ++ p ++ q).toNat =
      bytesBits [a, b, c, d, f, g, p, q] := by
    rw [bitsOf_bv_append, bitsOf_bv_append,
      bitsOf_bv_append, bitsOf_bv_append, bitsOf_bv_append, bitsOf_bv_append, bitsOf_bv_append]
    simp
  cases e
  · simp only [swapBe64, swap64_append]; exact key
  · simp only [swapBe64]; exact key

theorem swap64_swap64 (x : BitVec 64) : swap64 (swap64 x) = x := by
  have hx : x = x.extractLsb' 56 8 ++ x.extractLsb' 48 8 ++ x.extractLsb' 40 8 ++
      x.extractLsb' 32 8 ++ x.extractLsb' 24 8 ++ x.extractLsb' 16 8 ++ x.extractLsb' 8 8 ++
      x.extractLsb' 0 8 := by
    apply BitVec.eq_of_getLsbD_eq
    intro i hi
    simp only [BitVec.getLsbD_append, BitVec.getLsbD_extractLsb']
    interval_cases i <;> simp
  generalize x.extractLsb' 56 8 = a1, x.extractLsb' 48 8 = a2, x.extractLsb' 40 8 = a3,
    x.extractLsb' 32 8 = a4, x.extractLsb' 24 8 = a5, x.extractLsb' 16 8 = a6,
    x.extractLsb' 8 8 = a7, x.extractLsb' 0 8 = a8 at hx
  subst hx
  rw [swap64_append, swap64_append]

theorem swapBe64_inj {e : Endian} {x y : BitVec 64} (h : swapBe64 e x = swapBe64 e y) : x = y := by
  cases e
  · have := congrArg swap64 h
    simpa [swapBe64, swap64_swap64] using this
  · exact h

theorem swapBe64_zero (e : Endian) : swapBe64 e 0#64 = 0#64 := by cases e <;> decide

/-! ## Stores -/

theorem wordBytes16_swap (e : Endian) (v : BitVec 16) :
    wordBytes16 e (swapBe16 e v) = wordBytes16 .big v := by
  cases e
  · have hv : v = v.extractLsb' 8 8 ++ v.extractLsb' 0 8 := by
      apply BitVec.eq_of_getLsbD_eq
      intro i hi
      simp only [BitVec.getLsbD_append, BitVec.getLsbD_extractLsb']
      interval_cases i <;> simp
    generalize v.extractLsb' 8 8 = a7, v.extractLsb' 0 8 = a8 at hv
    subst hv
    simp only [swapBe16, swap16_append, wordBytes16, List.cons.injEq, and_true]
    constructor <;>
    · apply BitVec.eq_of_getLsbD_eq
      intro i hi
      simp only [BitVec.getLsbD_append, BitVec.getLsbD_extractLsb']
      interval_cases i <;> simp
  · rfl

theorem wordBytes32_swap (e : Endian) (v : BitVec 32) :
    wordBytes32 e (swapBe32 e v) = wordBytes32 .big v := by
  cases e
  · have hv : v = v.extractLsb' 24 8 ++ v.extractLsb' 16 8 ++ v.extractLsb' 8 8 ++
        v.extractLsb' 0 8 := by
      apply BitVec.eq_of_getLsbD_eq
      intro i hi
      simp only [BitVec.getLsbD_append, BitVec.getLsbD_extractLsb']
      interval_cases i <;> simp
    generalize v.extractLsb' 24 8 = a5, v.extractLsb' 16 8 = a6,
      v.extractLsb' 8 8 = a7, v.extractLsb' 0 8 = a8 at hv
    subst hv
    simp only [swapBe32, swap32_append, wordBytes32, List.cons.injEq, and_true]
    refine ⟨?_, ?_, ?_, ?_⟩ <;>
    · apply BitVec.eq_of_getLsbD_eq
      intro i hi
      simp only [BitVec.getLsbD_append, BitVec.getLsbD_extractLsb']
      interval_cases i <;> simp
  · rfl

theorem wordBytes64_swap (e : Endian) (v : BitVec 64) :
    wordBytes64 e (swapBe64 e v) = wordBytes64 .big v := by
  cases e
  · have hv : v = v.extractLsb' 56 8 ++ v.extractLsb' 48 8 ++ v.extractLsb' 40 8 ++
        v.extractLsb' 32 8 ++ v.extractLsb' 24 8 ++ v.extractLsb' 16 8 ++ v.extractLsb' 8 8 ++
        v.extractLsb' 0 8 := by
      apply BitVec.eq_of_getLsbD_eq
      intro i hi
      simp only [BitVec.getLsbD_append, BitVec.getLsbD_extractLsb']
      interval_cases i <;> simp
    generalize v.extractLsb' 56 8 = a1, v.extractLsb' 48 8 = a2, v.extractLsb' 40 8 = a3,
      v.extractLsb' 32 8 = a4, v.extractLsb' 24 8 = a5, v.extractLsb' 16 8 = a6,
      v.extractLsb' 8 8 = a7, v.extractLsb' 0 8 = a8 at hv
    subst hv
    simp only [swapBe64, swap64_append, wordBytes64, List.cons.injEq, and_true]
    refine ⟨?_, ?_, ?_, ?_, ?_, ?_, ?_, ?_⟩ <;>
    · apply BitVec.eq_of_getLsbD_eq
      intro i hi
      simp only [BitVec.getLsbD_append, BitVec.getLsbD_extractLsb']
      interval_cases i <;> simp
  · rfl

theorem bitsOf_extract {w : Nat} (v : BitVec w) (s n : Nat) :
    bitsOf n (v.extractLsb' s n).toNat = bitsOf n (v.toNat >>> s) := by
  rw [BitVec.extractLsb'_toNat, bitsOf_mod]

theorem bytesBits_wordBytes16 (v : BitVec 16) : bytesBits (wordBytes16 .big v) = bitsOf 16 v.toNat := by
  simp only [wordBytes16, bytesBits_cons, bytesBits_nil, List.append_nil, bitsOf_extract]
  generalize v.toNat = x
  rw [show (16 : Nat) = 8 + 8 from rfl, bitsOf_append]; simp

theorem bytesBits_wordBytes32 (v : BitVec 32) : bytesBits (wordBytes32 .big v) = bitsOf 32 v.toNat := by
  simp only [wordBytes32, bytesBits_cons, bytesBits_nil, List.append_nil, bitsOf_extract]
  generalize v.toNat = x
  rw [show (32 : Nat) = 8 + 24 from rfl, bitsOf_append, show (24 : Nat) = 8 + 16 from rfl,
    bitsOf_append, show (16 : Nat) = 8 + 8 from rfl, bitsOf_append]; simp

theorem bytesBits_wordBytes64 (v : BitVec 64) : bytesBits (wordBytes64 .big v) = bitsOf 64 v.toNat := by
  simp only [wordBytes64, bytesBits_cons, bytesBits_nil, List.append_nil, bitsOf_extract]
  generalize v.toNat = x
  rw [show (64 : Nat) = 8 + 56 from rfl, bitsOf_append, show (56 : Nat) = 8 + 48 from rfl,
    bitsOf_append, show (48 : Nat) = 8 + 40 from rfl, bitsOf_append,
    show (40 : Nat) = 8 + 32 from rfl, bitsOf_append, show (32 : Nat) = 8 + 24 from rfl,
    bitsOf_append, show (24 : Nat) = 8 + 16 from rfl,
    bitsOf_append, show (16 : Nat) = 8 + 8 from rfl, bitsOf_append]; simp

theorem writeBytes_ok {m : List Byte} {i : Nat} {bs : List Byte} (h : i + bs.length ≤ m.length) :
    writeBytes m i bs = some (m.take i ++ bs ++ m.drop (i + bs.length)) := by
  simp [writeBytes, h]

theorem length_wordBytes16 (e v) : (wordBytes16 e v).length = 2 := by cases e <;> rfl
theorem length_wordBytes32 (e v) : (wordBytes32 e v).length = 4 := by cases e <;> rfl
theorem length_wordBytes64 (e v) : (wordBytes64 e v).length = 8 := by cases e <;> rfl

end Lib842
