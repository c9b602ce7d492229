import Verif.Model.GenCrc
import Verif.Props.Sw
/-!
# Property theorems for the CRC (C16, C17, C18)
-/

namespace Lib842.Props
open Spec

/-! ## C16 -/

/-- C16: `crc32_be(0, buf, len)` is the bit-serial CRC of the `len` bytes, for every
address (alignment) and both byte orders; `m` may be longer than `len`. -/
theorem C16_crc32be_correct (e : Endian) (addr : Nat) (m : List Byte) (len : Nat) (h : len ≤ m.length) :
    crc32be e addr 0#32 m len = some (crc (m.take len)) :=
  crc32be_eq e addr m len h

example : crc32be .little 3 0#32 exIn 19 = some 0x1dd93cf4#32 ∧ crc32be .big 2 0#32 exIn 19 = some 0x1dd93cf4#32 ∧
    crc exIn = 0x1dd93cf4#32 := by decide +kernel

/-! ## C17 -/

/-- C17: every entry the code uses is (the byte swapped form of) the CRC of the byte `i`
followed by `k` zero bytes. -/
theorem C17_table_entries (e : Endian) (k i : Nat) (hk : k < 8) (hi : i < 256) :
    crcTab e k i = some (swapBe32 e (crc (BitVec.ofNat 8 i :: List.replicate k 0#8))) := by
  rw [crcTab_eq e k i hk hi]
  congr 2
  have hz : ∀ k c, feed c (bytesBits (List.replicate k 0#8)) = F^[k] c := by
    intro k
    induction k with
    | zero => intro c; rfl
    | succ k ih =>
      intro c
      rw [List.replicate_succ, bytesBits_cons, feed_append, ih, feed_byte, Function.iterate_succ_apply]
      simp
  have hi' : ((BitVec.ofNat 8 i).setWidth 32 : BitVec 32) = BitVec.ofNat 32 i := by
    apply BitVec.eq_of_toNat_eq
    simp only [BitVec.toNat_ofNat, BitVec.toNat_setWidth]
    omega
  rw [crc_eq_feed, bytesBits_cons, feed_append, hz, feed_byte, Function.iterate_succ_apply, hi',
    BitVec.zero_xor]

/-- C17: the shipped table is what the generator program computes (`foldr` transposes the
rows into columns). -/
theorem C17_table_generated :
    genTable = some (crcRows.foldr (List.zipWith List.cons) (List.replicate 256 [])) := by
  decide +kernel

/-- The table has 8 rows of 256 entries. -/
theorem C17_table_shape : crcRows.length = 8 ∧ ∀ row ∈ crcRows, row.length = 256 := by
  decide +kernel

/-! ## C18 -/

theorem step0_eq_zero {x : BitVec 32} (h : step0 x = 0#32) : x = 0#32 := by
  unfold step0 crcStep at h
  by_cases hm : x.msb
  · rw [if_pos (by simp [hm])] at h
    have := congrArg (·.getLsbD 0) h
    simp at this
  · rw [if_neg (by simp [hm])] at h
    apply BitVec.eq_of_getLsbD_eq
    intro i hi
    rcases Nat.lt_or_ge i 31 with hlt | hge
    · have := congrArg (·.getLsbD (i + 1)) h
      simp only [BitVec.getLsbD_shiftLeft] at this
      simpa [show i + 1 < 32 by omega] using this
    · obtain rfl : i = 31 := by omega
      rw [BitVec.msb_eq_getLsbD_last] at hm
      simpa using hm

theorem step0_iter_eq_zero {n : Nat} {x : BitVec 32} (h : step0^[n] x = 0#32) : x = 0#32 := by
  induction n with
  | zero => exact h
  | succ n ih => rw [Function.iterate_succ_apply'] at h; exact ih (step0_eq_zero h)

theorem feed_xor (l l' : List Bool) (h : l.length = l'.length) (c c' : BitVec 32) :
    feed c l ^^^ feed c' l' = feed (c ^^^ c') (List.zipWith (· ^^ ·) l l') := by
  induction l generalizing l' c c' with
  | nil => cases l'; rfl; simp at h
  | cons b l ih =>
    cases l' with
    | nil => simp at h
    | cons b' l' =>
      rw [feed_cons, feed_cons, List.zipWith_cons_cons, feed_cons, crcStep_xor]
      exact ih l' (by simpa using h) _ _

theorem feed_false (n : Nat) (c : BitVec 32) : feed c (List.replicate n false) = step0^[n] c := by
  induction n generalizing c with
  | zero => rfl
  | succ n ih => rw [List.replicate_succ, feed_cons, ih, Function.iterate_succ_apply]; rfl

theorem eq_replicate_false {l : List Bool} (h : ∀ i : Nat, l[i]? ≠ some true) :
    l = List.replicate l.length false := by
  apply List.eq_replicate_of_mem
  intro b hb
  obtain ⟨i, hi⟩ := List.mem_iff_getElem?.1 hb
  cases b
  · rfl
  · exact absurd hi (h i)

theorem feed_burst {l l' : List Bool} (hlen : l.length = l'.length) (p : Nat)
    (hp : ∀ i : Nat, l[i]? ≠ l'[i]? → p ≤ i ∧ i < p + 32) (heq : feed 0#32 l = feed 0#32 l') : l = l' := by
  have hd : feed 0#32 (List.zipWith (· ^^ ·) l l') = 0#32 := by
    have := feed_xor l l' hlen 0#32 0#32
    rw [heq, BitVec.xor_self, BitVec.xor_self] at this
    exact this.symm
  have hget : ∀ i : Nat, (List.zipWith (· ^^ ·) l l')[i]? = some true ↔ l[i]? ≠ l'[i]? := by
    intro i
    rw [List.getElem?_zipWith]
    by_cases hi : i < l.length
    · rw [List.getElem?_eq_getElem hi, List.getElem?_eq_getElem (hlen ▸ hi)]
      cases l[i] <;> cases l'[i]'(hlen ▸ hi) <;> simp
    · rw [List.getElem?_eq_none (by omega), List.getElem?_eq_none (by omega)]; simp
  generalize List.zipWith (· ^^ ·) l l' = d at hd hget
  have h1 : ∀ i : Nat, (d.take p)[i]? ≠ some true := by
    intro i hi
    rw [List.getElem?_take] at hi
    split at hi
    · have := hp i ((hget i).1 hi); omega
    · cases hi
  have h3 : ∀ i : Nat, ((d.drop p).drop 32)[i]? ≠ some true := by
    intro i hi
    rw [List.drop_drop, List.getElem?_drop] at hi
    have := hp _ ((hget _).1 hi); omega
  have hsplit : d = d.take p ++ ((d.drop p).take 32 ++ (d.drop p).drop 32) := by
    rw [List.take_append_drop, List.take_append_drop]
  have hw : topAlign ((d.drop p).take 32) = 0#32 := by
    rw [hsplit, feed_append, feed_append, eq_replicate_false h1, feed_false, step0_iter_zero,
      eq_replicate_false h3, feed_false] at hd
    have := step0_iter_eq_zero hd
    rw [feed_eq _ (by simp)] at this
    simpa using step0_iter_eq_zero this
  apply List.ext_getElem?
  intro i
  by_contra hne
  have hdi := (hget i).2 hne
  obtain ⟨hpi, hpi'⟩ := hp i hne
  have := getMsbD_topAlign ((d.drop p).take 32) (i - p) (by omega)
  rw [hw, List.getElem?_take, if_pos (by omega), List.getElem?_drop, Nat.add_sub_cancel' hpi, hdi] at this
  simp at this

/-- Two byte strings of equal length that differ, all differing bits (counted from the most
significant bit of the first byte) lying in a window of 32 consecutive positions. -/
def BurstDiffer (a b : List Byte) : Prop :=
  a.length = b.length ∧ a ≠ b ∧
  ∃ p, ∀ i : Nat, (bytesBits a)[i]? ≠ (bytesBits b)[i]? → p ≤ i ∧ i < p + 32

/-- C18: a burst of at most 32 bits always changes the CRC. -/
theorem C18_burst_detected (a b : List Byte) (h : BurstDiffer a b) : crc a ≠ crc b := by
  obtain ⟨hlen, hne, p, hp⟩ := h
  intro heq
  exact hne (bytesBits_inj (feed_burst (by simp [hlen]) p hp heq))

/-- C18: whatever `sw842_decompress` returns on a stream whose stored CRC is that of `orig`
does not differ from `orig` by such a burst. -/
theorem C18_sw_burst_never_returned (e : Endian) (addr : Nat) (inp buf orig : List Byte) (n : Nat)
    (b : List Byte) (ops : List Op) (d : List Byte) (R : List Bool)
    (h : sw842Decompress e addr inp buf = .ret none n b) (hops : Expands ops d)
    (hin : bytesBits inp = ops.flatMap Op.bits ++ bitsOf 5 0x1e ++ bitsOf 32 (crc orig).toNat ++ R) :
    ¬ BurstDiffer (b.take n) orig := by
  intro hb
  obtain ⟨b', -, ht, h'⟩ := sw842Decompress_of e addr inp buf hops (c := crc orig) (R := R)
    (by rw [hin]; simp only [List.append_assoc])
  rw [h] at h'
  split at h'
  · cases h'
  · rename_i hlt
    split at h'
    · cases h'
    · rename_i hc
      split at h'
      · cases h'
      · cases h'
        rw [ht (by omega)] at hb
        rw [not_not] at hc
        exact C18_burst_detected _ _ hb hc.symm

/-- Flipping four bits spread over 25 positions is such a burst. -/
example : BurstDiffer [0x12, 0x34, 0x56, 0x78, 0x9a] [0x12, 0x35, 0x56, 0x58, 0x1a] := by
  refine ⟨rfl, by decide, 8, ?_⟩
  intro i h
  by_contra hc
  apply h
  by_cases h40 : i < 40
  · have : i < 8 := by omega
    interval_cases i <;> decide
  · rw [List.getElem?_eq_none (by simp; omega), List.getElem?_eq_none (by simp; omega)]

end Lib842.Props
