import Verif.Proofs.CrcOrder
import Verif.Props.Crc
import Verif.Props.Opt
/-!
# What the CRC notices (C85, C86)
-/

namespace Lib842.Props
open Spec

/-! ## C85 -/

/-- Two byte strings of equal length that differ exactly in the bits `i` and `j` (counted from the most significant bit of
the first byte) -/
def TwoBitsDiffer (a b : List Byte) (i j : Nat) : Prop :=
  a.length = b.length ∧ i < j ∧ ∀ k : Nat, (bytesBits a)[k]? ≠ (bytesBits b)[k]? ↔ k = i ∨ k = j

theorem step0_iter_inj {n : Nat} {x y : BitVec 32} (h : step0^[n] x = step0^[n] y) : x = y := by
  have : step0^[n] (x ^^^ y) = 0#32 := by rw [step0_iter_xor, h, BitVec.xor_self]
  exact BitVec.xor_eq_zero_iff.1 (step0_iter_eq_zero this)

theorem feed_true : crcStep 0#32 true = step0^[32] 1#32 := by decide +kernel

/-- A difference in the bits `i` and `i + d + 1` of `n` -/
theorem feed_two (i d r : Nat) :
    feed 0#32 (List.replicate i false ++ true :: (List.replicate d false ++ true :: List.replicate r false)) =
      step0^[r + 32] (step0^[d + 1] 1#32 ^^^ 1#32) := by
  rw [feed_append, feed_false, step0_iter_zero, feed_cons, feed_append, feed_false, feed_cons, feed_false, feed_true]
  have e : crcStep (step0^[d] (step0^[32] 1#32)) true = step0 (step0^[d] (step0^[32] 1#32)) ^^^ step0^[32] 1#32 := by
    have := crcStep_xor (step0^[d] (step0^[32] 1#32)) 0#32 false true
    rw [BitVec.xor_zero, feed_true] at this
    exact this
  rw [e, ← Function.iterate_succ_apply' step0, Function.iterate_add_apply]
  congr 1
  rw [step0_iter_xor, ← Function.iterate_add_apply, ← Function.iterate_add_apply, Nat.add_comm]

theorem eq_replicate_of_getElem? {l : List Bool} (h : ∀ i : Nat, l[i]? ≠ some true) :
    l = List.replicate l.length false := eq_replicate_false h

/-- A list of bits with exactly two bits set -/
theorem two_set {l : List Bool} {i j : Nat} (hij : i < j) (h : ∀ k : Nat, l[k]? = some true ↔ k = i ∨ k = j) :
    ∃ r, l = List.replicate i false ++ true :: (List.replicate (j - i - 1) false ++ true :: List.replicate r false) := by
  have hj : j < l.length := (List.getElem?_eq_some_iff.1 ((h j).2 (.inr rfl))).1
  refine ⟨l.length - j - 1, ?_⟩
  apply List.ext_getElem?
  intro k
  have hb : ∀ k, k < l.length → k ≠ i → k ≠ j → l[k]? = some false := by
    intro k hk h1 h2
    rw [List.getElem?_eq_getElem hk]
    have := mt (h k).1 (by omega)
    rw [List.getElem?_eq_getElem hk] at this
    cases hx : l[k]
    · rfl
    · rw [hx] at this; exact absurd rfl this
  rcases Nat.lt_trichotomy k i with h1 | h1 | h1
  · rw [List.getElem?_append_left (by rw [List.length_replicate]; exact h1), hb k (by omega) (by omega) (by omega),
      List.getElem?_replicate, if_pos h1]
  · subst h1
    rw [(h k).2 (.inl rfl), List.getElem?_append_right (by rw [List.length_replicate]), List.length_replicate, Nat.sub_self]
    rfl
  · rw [List.getElem?_append_right (by rw [List.length_replicate]; omega), List.length_replicate,
      show k - i = (k - i - 1) + 1 by omega, List.getElem?_cons_succ]
    rcases Nat.lt_trichotomy k j with h2 | h2 | h2
    · rw [List.getElem?_append_left (by rw [List.length_replicate]; omega), hb k (by omega) (by omega) (by omega),
        List.getElem?_replicate, if_pos (by omega)]
    · subst h2
      rw [(h k).2 (.inr rfl), List.getElem?_append_right (by rw [List.length_replicate]), List.length_replicate, Nat.sub_self]
      rfl
    · rw [List.getElem?_append_right (by rw [List.length_replicate]; omega), List.length_replicate,
        show k - i - 1 - (j - i - 1) = (k - j - 1) + 1 by omega, List.getElem?_cons_succ, List.getElem?_replicate]
      split
      · exact hb k (by omega) (by omega) (by omega)
      · exact List.getElem?_eq_none (by omega)

/-- C85, exactly: two wrong bits go unnoticed if and only if their distance is a multiple of 2^32 - 1. -/
theorem C85_two_bits_iff (a b : List Byte) (i j : Nat) (h : TwoBitsDiffer a b i j) :
    crc a = crc b ↔ (j - i) % (2 ^ 32 - 1) = 0 := by
  obtain ⟨hlen, hij, hd⟩ := h
  have hlen' : (bytesBits a).length = (bytesBits b).length := by simp [hlen]
  have hget : ∀ k : Nat, (List.zipWith (· ^^ ·) (bytesBits a) (bytesBits b))[k]? = some true ↔ k = i ∨ k = j := by
    intro k
    rw [← hd k, List.getElem?_zipWith]
    by_cases hk : k < (bytesBits a).length
    · rw [List.getElem?_eq_getElem hk, List.getElem?_eq_getElem (hlen' ▸ hk)]
      cases (bytesBits a)[k] <;> cases (bytesBits b)[k]'(hlen' ▸ hk) <;> simp
    · rw [List.getElem?_eq_none (by omega), List.getElem?_eq_none (by omega)]; simp
  obtain ⟨r, hr⟩ := two_set hij hget
  have hx : crc a ^^^ crc b = step0^[r + 32] (step0^[j - i] 1#32 ^^^ 1#32) := by
    rw [crc_eq_feed, crc_eq_feed, feed_xor _ _ hlen', BitVec.xor_self, hr, feed_two, show j - i - 1 + 1 = j - i by omega]
  rw [← Nat.dvd_iff_mod_eq_zero, ← step0_period, ← BitVec.xor_eq_zero_iff, hx]
  constructor
  · intro h
    exact BitVec.xor_eq_zero_iff.1 (step0_iter_eq_zero h)
  · intro h
    rw [h, BitVec.xor_self, step0_iter_zero]

/-- C85: up to 512 MiB, two wrong bits anywhere always change the CRC. -/
theorem C85_two_bits_detected (a b : List Byte) (i j : Nat) (h : TwoBitsDiffer a b i j) (hl : a.length < 2 ^ 29) :
    crc a ≠ crc b := by
  rw [Ne, C85_two_bits_iff a b i j h]
  obtain ⟨hlen, hij, hd⟩ := h
  have hj : j < (bytesBits a).length := by
    by_contra hc
    exact (hd j).2 (.inr rfl) (by
      rw [List.getElem?_eq_none (by omega), List.getElem?_eq_none (by simp at hc ⊢; omega)])
  rw [length_bytesBits] at hj
  rw [Nat.mod_eq_of_lt (by omega)]
  omega

/-- The op sequence and the CRC after it can be read in only one way. -/
theorem stored_crc {inp y : List Byte} {c : BitVec 32} {ops ops' : List Op} {d : List Byte} {R R' : List Bool}
    (hops : Expands ops d) (hin : bytesBits inp = ops.flatMap Op.bits ++ bitsOf 5 0x1e ++ bitsOf 32 c.toNat ++ R)
    (hops' : Expands ops' y) (hin' : bytesBits inp = ops'.flatMap Op.bits ++ bitsOf 5 0x1e ++ bitsOf 32 (crc y).toNat ++ R')
    (hl : y.length ≤ 0xffffffff ∨ d.length ≤ 0xffffffff) : crc y = c ∧ y = d := by
  obtain ⟨b1, -, t1, e1⟩ := sw842Decompress_of .big 0 inp (List.replicate (d.length + y.length) 0#8) hops (c := c)
    (R := R) (by rw [hin]; simp only [List.append_assoc])
  obtain ⟨b2, -, t2, e2⟩ := sw842Decompress_of .big 0 inp (List.replicate (d.length + y.length) 0#8) hops' (c := crc y)
    (R := R') (by rw [hin']; simp only [List.append_assoc])
  rw [List.length_replicate] at e1 e2 t1 t2
  rw [if_neg (by omega), if_neg (fun h => h rfl)] at e2
  rw [if_neg (by omega)] at e1
  rw [e2] at e1
  by_cases hc : c = crc d
  · by_cases hy : y.length > 0xffffffff
    · rw [if_pos hy, if_neg (fun h => h hc), if_neg (by omega)] at e1
      cases e1
    · rw [if_neg hy, if_neg (fun h => h hc)] at e1
      split at e1
      · cases e1
      · injection e1 with _ h2 h3
        have hy : y = d := by rw [← t2 (by omega), ← t1 (by omega), h2, h3]
        exact ⟨by rw [hy, hc], hy⟩
  · rw [if_pos (show c ≠ crc d from hc)] at e1
    split at e1 <;> cases e1

/-- What a decompressor returns has the CRC that the stream contains. -/
theorem returned_crc {e : Endian} {ain aout : Nat} {inp buf : List Byte} {c : BitVec 32} {n : Nat} {b : List Byte}
    {ops : List Op} {d : List Byte} {R : List Bool}
    (h : sw842Decompress e aout inp buf = .ret none n b ∨ optsw842Decompress e ain aout inp buf = .ret none n b)
    (hops : Expands ops d) (hin : bytesBits inp = ops.flatMap Op.bits ++ bitsOf 5 0x1e ++ bitsOf 32 c.toNat ++ R)
    (hl : (b.take n).length ≤ 0xffffffff ∨ d.length ≤ 0xffffffff) : crc (b.take n) = c ∧ b.take n = d := by
  have hc : ∃ ops R, Expands ops (b.take n) ∧ bytesBits inp =
      ops.flatMap Op.bits ++ bitsOf 5 0x1e ++ bitsOf 32 (crc (b.take n)).toNat ++ R := by
    rcases h with h | h
    · exact C15_sw_crc_checked e aout inp buf n b h
    · exact C15_opt_crc_checked e ain aout inp buf n b h
  obtain ⟨ops', R', h1, h2⟩ := hc
  exact stored_crc hops hin h1 h2 hl

/-- C18: whatever `optsw842_decompress` returns on a stream whose stored CRC is that of `orig` does not differ from `orig` by a burst. -/
theorem C18_opt_burst_never_returned (e : Endian) (ain aout : Nat) (inp buf orig : List Byte) (n : Nat) (b : List Byte) (ops : List Op)
    (d : List Byte) (R : List Bool) (h : optsw842Decompress e ain aout inp buf = .ret none n b) (hops : Expands ops d)
    (hin : bytesBits inp = ops.flatMap Op.bits ++ bitsOf 5 0x1e ++ bitsOf 32 (crc orig).toNat ++ R) :
    ¬ BurstDiffer (b.take n) orig := by
  intro hb
  obtain ⟨ops', R', h1, h2⟩ := C15_opt_crc_checked e ain aout inp buf n b h
  rw [hin] at h2
  simp only [List.append_assoc] at h2
  obtain ⟨_, h3⟩ := ops_bits_inj hops.1 h1.1 h2
  have h4 := bitsOf_inj (List.append_inj h3 (by simp)).1 (BitVec.isLt _) (BitVec.isLt _)
  exact C18_burst_detected _ _ hb (BitVec.eq_of_toNat_eq h4.symm)

/-- C85: what the decompressors return for a stream whose stored CRC is that of `orig` never differs from `orig` in exactly
two bits (outputs below 512 MiB). -/
theorem C85_never_returned (e : Endian) (ain aout : Nat) (inp buf orig : List Byte) (n : Nat) (b : List Byte)
    (ops : List Op) (d : List Byte) (R : List Bool) (i j : Nat)
    (h : sw842Decompress e aout inp buf = .ret none n b ∨ optsw842Decompress e ain aout inp buf = .ret none n b)
    (hops : Expands ops d)
    (hin : bytesBits inp = ops.flatMap Op.bits ++ bitsOf 5 0x1e ++ bitsOf 32 (crc orig).toNat ++ R)
    (hl : orig.length < 2 ^ 29) : ¬ TwoBitsDiffer (b.take n) orig i j := by
  intro ht
  have hlen := ht.1
  exact C85_two_bits_detected _ _ i j ht (by omega) (returned_crc h hops hin (.inl (by omega))).1

/-- Bits 3 and 38 -/
example : TwoBitsDiffer [0x12, 0x34, 0x56, 0x78, 0x9a] [0x02, 0x34, 0x56, 0x78, 0x98] 3 38 := by
  refine ⟨rfl, by decide, ?_⟩
  intro k
  by_cases h40 : k < 40
  · interval_cases k <;> decide
  · rw [List.getElem?_eq_none (by simp; omega), List.getElem?_eq_none (by simp; omega)]
    simp; omega

/-! ## C86 -/

/-- Two byte strings of equal length that differ in exactly one bit -/
def OneBitDiffer (a b : List Byte) : Prop :=
  a.length = b.length ∧ ∃ i, ∀ k : Nat, (bytesBits a)[k]? ≠ (bytesBits b)[k]? ↔ k = i

/-- The CRC does not see leading zeros. -/
theorem C86_leading_zeros (k : Nat) (x : List Byte) : crc (List.replicate k 0#8 ++ x) = crc x := by
  rw [crc_eq_feed, crc_eq_feed, bytesBits_append, feed_append]
  congr 1
  induction k with
  | zero => rfl
  | succ k ih =>
    rw [List.replicate_succ, bytesBits_cons, feed_append, show feed 0#32 (bitsOf 8 (0#8).toNat) = 0#32 by decide]
    exact ih

/-- `zeros`, `repeat n`, end, CRC 0, padding: what `sw842_compress` makes of `8 * (n + 2)` zero bytes -/
def zeroRun (n : Nat) : List Byte := [0xe6, BitVec.ofNat 8 (0xc0 + n), 0xf0, 0, 0, 0, 0, 0]

theorem zeroRun_bits : ∀ n, n < 64 → bytesBits (zeroRun n) = (([Op.zeros, Op.rep n].flatMap Op.bits ++
    (bitsOf 5 0x1e ++ bitsOf 32 0)) ++ List.replicate 11 false) := by
  decide +kernel

theorem zeroRun_expands (n : Nat) (h : n < 64) : Expands [.zeros, .rep n] (List.replicate (8 * (n + 2)) 0#8) := by
  refine ⟨by simp [Op.Valid, h], .cons .zeros (.cons (out' := List.replicate (8 * (n + 2)) 0#8) ?_ .nil)⟩
  have e : List.replicate (8 * (n + 2)) 0#8 = ([] ++ List.replicate 8 0#8) ++
      (List.replicate (n + 1) (([] ++ List.replicate 8 0#8).drop (([] ++ List.replicate 8 (0#8 : Byte)).length - 8))).flatten := by
    rw [List.nil_append, List.length_replicate, Nat.sub_self, List.drop_zero, List.flatten_replicate_replicate,
      List.replicate_append_replicate]
    congr 1
    omega
  rw [e]
  exact .rep (by simp)

theorem zeroRun_decodes (n : Nat) (h : n < 64) : HwDecodes (zeroRun n) (List.replicate (8 * (n + 2)) 0#8) := by
  refine ⟨[.zeros, .rep n], List.replicate 11 false, zeroRun_expands n h, by simp [Op.isShort], ?_⟩
  have hc := C86_leading_zeros (8 * (n + 2)) []
  rw [List.append_nil] at hc
  rw [trailer, hc]
  exact zeroRun_bits n h

/-- C86 is false: in a stream for a run of zeros any bit of the repeat count may be wrong (the number of zero bytes
returned is then wrong, too); both decompressors return success. -/
theorem C86_zero_run_false (e : Endian) (ain aout n : Nat) (h : n < 64) (buf : List Byte) (hb : 8 * (n + 2) ≤ buf.length) :
    (∃ b, sw842Decompress e aout (zeroRun n) buf = .ret none (8 * (n + 2)) b ∧
      b.take (8 * (n + 2)) = List.replicate (8 * (n + 2)) 0#8) ∧
    ∃ b, optsw842Decompress e ain aout (zeroRun n) buf = .ret none (8 * (n + 2)) b ∧
      b.take (8 * (n + 2)) = List.replicate (8 * (n + 2)) 0#8 := by
  have hd := zeroRun_decodes n h
  have hs : ∀ a, ∃ b, sw842Decompress e a (zeroRun n) buf = .ret none (8 * (n + 2)) b ∧
      b.take (8 * (n + 2)) = List.replicate (8 * (n + 2)) 0#8 := by
    intro a
    have := (C13_sw_accepts_exactly_format e a (zeroRun n) buf (List.replicate (8 * (n + 2)) 0#8)).2
      ⟨hd.decodes, by rw [List.length_replicate]; exact hb, by rw [List.length_replicate]; omega⟩
    rwa [List.length_replicate] at this
  refine ⟨hs aout, ?_⟩
  by_cases hal : ain % 8 ≠ 0 ∨ aout % 8 ≠ 0
  · rw [optDecompress_sw _ _ hal]
    exact hs aout
  · have := (C14_opt_accepts_exactly_format e ain aout (zeroRun n) buf (List.replicate (8 * (n + 2)) 0#8) (by omega)).2
      ⟨by rw [List.take_of_length_le (by simp [zeroRun])]; exact hd, by rw [List.length_replicate]; exact hb⟩
    rwa [List.length_replicate] at this

/-- The streams for 64 and for 48 zero bytes differ in one bit. -/
example : (∀ e, sw842Compress e 0 junk0 (List.replicate 64 0) (List.replicate 8 0xaa) = .ret none 8 (zeroRun 6)) ∧
    OneBitDiffer (zeroRun 6) (zeroRun 4) := by
  refine ⟨by intro e; cases e <;> decide +kernel, rfl, 14, ?_⟩
  intro k
  by_cases h64 : k < 64
  · interval_cases k <;> decide
  · rw [List.getElem?_eq_none (by simp [zeroRun]; omega), List.getElem?_eq_none (by simp [zeroRun]; omega)]
    simp; omega

/-- 24 bytes: the third group is the first one; the second one differs from it by the polynomial of the CRC. -/
def dmgIn : List Byte := [1, 2, 3, 4, 5, 6, 7, 8, 1, 2, 3, 5, 1, 0xc7, 0x1a, 0xbf, 1, 2, 3, 4, 5, 6, 7, 8]
/-- Their compressed form; the third op is a reference to the group 0. -/
def dmgStream : List Byte :=
  [0x00, 0x08, 0x10, 0x18, 0x20, 0x28, 0x30, 0x38, 0x42, 0x80, 0x00, 0xc1, 0x40, 0x71, 0xc6, 0xaf, 0xf2, 0x01, 0xe3,
   0x37, 0x36, 0xdd, 0x30, 0x00]

/-- C86 is false even if the length is known: with one bit of a reference wrong, the decompressors return other data of the
same length, and success. -/
theorem C86_same_length_false (e : Endian) :
    sw842Compress e 0 junk0 dmgIn (List.replicate 24 0xaa) = .ret none 24 dmgStream ∧
    OneBitDiffer dmgStream (dmgStream.set 17 0x03) ∧
    sw842Decompress e 0 (dmgStream.set 17 0x03) (List.replicate 24 0) = .ret none 24 (dmgIn.take 16 ++ (dmgIn.drop 8).take 8) ∧
    optsw842Decompress e 0 0 (dmgStream.set 17 0x03) (List.replicate 24 0) =
      .ret none 24 (dmgIn.take 16 ++ (dmgIn.drop 8).take 8) ∧
    dmgIn.take 16 ++ (dmgIn.drop 8).take 8 ≠ dmgIn := by
  refine ⟨by cases e <;> decide +kernel, ⟨rfl, 142, ?_⟩, by cases e <;> decide +kernel, by cases e <;> decide +kernel,
    by decide⟩
  have h : ∀ k, k < 192 → ((bytesBits dmgStream)[k]? ≠ (bytesBits (dmgStream.set 17 0x03))[k]? ↔ k = 142) := by
    decide +kernel
  intro k
  by_cases hk : k < 192
  · exact h k hk
  · rw [List.getElem?_eq_none (by simp [dmgStream]; omega), List.getElem?_eq_none (by simp [dmgStream]; omega)]
    simp; omega

/-- C86 for the CRC itself: a stream with a wrong bit there is rejected. -/
theorem C86_crc_noticed (e : Endian) (ain aout : Nat) (inp inp' buf x : List Byte) (ops : List Op) (R : List Bool)
    (hops : Expands ops x)
    (hin : bytesBits inp = ops.flatMap Op.bits ++ bitsOf 5 0x1e ++ bitsOf 32 (crc x).toNat ++ R)
    (hlen : inp'.length = inp.length) (i : Nat) (h1 : (ops.flatMap Op.bits).length + 5 ≤ i)
    (h2 : i < (ops.flatMap Op.bits).length + 37)
    (hone : ∀ k : Nat, (bytesBits inp')[k]? ≠ (bytesBits inp)[k]? ↔ k = i) (hx : x.length ≤ 0xffffffff)
    (n : Nat) (b : List Byte) :
    sw842Decompress e aout inp' buf ≠ .ret none n b ∧ optsw842Decompress e ain aout inp' buf ≠ .ret none n b := by
  have hl : (bytesBits inp').length = (bytesBits inp).length := by simp [hlen]
  have hl2 := congrArg List.length hin
  simp only [List.length_append, length_bitsOf] at hl2
  generalize hL : (ops.flatMap Op.bits).length = L at *
  have hpre : (bytesBits inp').take (L + 5) = ops.flatMap Op.bits ++ bitsOf 5 0x1e := by
    have : (bytesBits inp).take (L + 5) = ops.flatMap Op.bits ++ bitsOf 5 0x1e := by
      rw [hin, List.append_assoc _ _ R, List.take_left' (by rw [List.length_append, length_bitsOf, hL])]
    rw [← this]
    apply List.ext_getElem?
    intro k
    rw [List.getElem?_take, List.getElem?_take]
    split
    · by_contra hne
      have := (hone k).1 hne
      omega
    · rfl
  obtain ⟨c, hc, hmid⟩ := flatMap_bits_val (l := ((bytesBits inp').drop (L + 5)).take 32) (n := 32) (by
    rw [List.length_take, List.length_drop]; omega)
  have hin' : bytesBits inp' = ops.flatMap Op.bits ++ bitsOf 5 0x1e ++ bitsOf 32 (BitVec.ofNat 32 c).toNat ++
      ((bytesBits inp').drop (L + 5)).drop 32 := by
    rw [BitVec.toNat_ofNat, Nat.mod_eq_of_lt hc, ← hmid, ← hpre, List.append_assoc, List.take_append_drop,
      List.take_append_drop]
  have hne : BitVec.ofNat 32 c ≠ crc x := by
    intro heq
    apply (hone i).2 rfl
    have hi : i < (ops.flatMap Op.bits ++ bitsOf 5 0x1e ++ bitsOf 32 (crc x).toNat).length := by
      rw [List.length_append, List.length_append, length_bitsOf, length_bitsOf, hL]; omega
    rw [hin', hin, heq, List.getElem?_append_left hi, List.getElem?_append_left hi]
  have key : ¬ (sw842Decompress e aout inp' buf = .ret none n b ∨ optsw842Decompress e ain aout inp' buf = .ret none n b) := by
    intro h
    obtain ⟨k1, k2⟩ := returned_crc h hops hin' (.inr hx)
    rw [k2] at k1
    exact hne k1.symm
  exact ⟨fun h => key (.inl h), fun h => key (.inr h)⟩

/-- The hypotheses hold for bit 31 of the stream for 64 zero bytes. -/
example (n : Nat) (b : List Byte) :
    sw842Decompress .little 0 [0xe6, 0xc6, 0xf0, 1, 0, 0, 0, 0] (List.replicate 64 0) ≠ .ret none n b := by
  have hc := C86_leading_zeros 64 []
  rw [List.append_nil] at hc
  have hL : ([Op.zeros, Op.rep 6].flatMap Op.bits).length = 16 := by decide
  refine (C86_crc_noticed .little 0 0 (zeroRun 6) [0xe6, 0xc6, 0xf0, 1, 0, 0, 0, 0] (List.replicate 64 0)
    (List.replicate 64 0#8) [.zeros, .rep 6] (List.replicate 11 false) ?_ ?_ (by decide) 31 (by rw [hL]; decide)
    (by rw [hL]; decide) ?_ (by rw [List.length_replicate]; decide) n b).1
  · exact zeroRun_expands 6 (by decide)
  · rw [hc, show (crc []).toNat = 0 from rfl]
    simpa only [List.append_assoc] using zeroRun_bits 6 (by decide)
  · have h : ∀ k, k < 64 → ((bytesBits [0xe6, 0xc6, 0xf0, 1, 0, 0, 0, 0])[k]? ≠ (bytesBits (zeroRun 6))[k]? ↔ k = 31) := by
      decide +kernel
    intro k
    by_cases hk : k < 64
    · exact h k hk
    · rw [List.getElem?_eq_none (by simp; omega), List.getElem?_eq_none (by simp [zeroRun]; omega)]
      simp; omega

/-- C86, partial: if the damage leaves the positions of the end marker and of the CRC as they are (it is in a literal, a
reference or a repeat count) and the length of the data is right, then what is returned is the original or differs from it in
at least three bits that are spread over more than 32 positions (outputs below 512 MiB).  Missing: all other damage, see
above. -/
theorem C86_noticed_partial (e : Endian) (ain aout : Nat) (inp' buf x : List Byte) (ops' : List Op) (d : List Byte)
    (R : List Bool) (hops' : Expands ops' d)
    (hin' : bytesBits inp' = ops'.flatMap Op.bits ++ bitsOf 5 0x1e ++ bitsOf 32 (crc x).toNat ++ R)
    (hx : x.length < 2 ^ 29) (n : Nat) (b : List Byte)
    (h : sw842Decompress e aout inp' buf = .ret none n b ∨ optsw842Decompress e ain aout inp' buf = .ret none n b)
    (hlen : (b.take n).length = x.length) (hne : b.take n ≠ x) :
    ∃ i j k : Nat, i < j ∧ j < k ∧ i + 32 ≤ k ∧ ∀ p ∈ [i, j, k], (bytesBits (b.take n))[p]? ≠ (bytesBits x)[p]? := by
  have hcrc := (returned_crc h hops' hin' (.inl (by omega))).1
  generalize b.take n = y at *
  have hD : ∀ p : Nat, (bytesBits y)[p]? ≠ (bytesBits x)[p]? → p < 8 * x.length := by
    intro p hp
    by_contra hc
    exact hp (by rw [List.getElem?_eq_none (by simp; omega), List.getElem?_eq_none (by simp; omega)])
  have hex : ∃ p : Nat, (bytesBits y)[p]? ≠ (bytesBits x)[p]? := by
    by_contra hc
    push Not at hc
    exact hne (bytesBits_inj (List.ext_getElem? hc))
  classical
  have hi := Nat.find_spec hex
  have hmin : ∀ p : Nat, (bytesBits y)[p]? ≠ (bytesBits x)[p]? → Nat.find hex ≤ p := fun p hp => Nat.find_min' hex hp
  generalize Nat.find hex = i at hi hmin
  have hk :=
    Nat.findGreatest_spec (P := fun p : Nat => (bytesBits y)[p]? ≠ (bytesBits x)[p]?) (Nat.le_of_lt (hD i hi)) hi
  have hmax : ∀ p : Nat, (bytesBits y)[p]? ≠ (bytesBits x)[p]? →
      p ≤ Nat.findGreatest (fun p : Nat => (bytesBits y)[p]? ≠ (bytesBits x)[p]?) (8 * x.length) :=
    fun p hp => Nat.le_findGreatest (Nat.le_of_lt (hD p hp)) hp
  generalize Nat.findGreatest (fun p : Nat => (bytesBits y)[p]? ≠ (bytesBits x)[p]?) (8 * x.length) = k at hk hmax
  have hik : i + 32 ≤ k := by
    by_contra hc
    exact C18_burst_detected y x ⟨hlen, hne, i, fun p hp => ⟨hmin p hp, by have := hmax p hp; omega⟩⟩ hcrc
  have hj : ∃ j : Nat, i < j ∧ j < k ∧ (bytesBits y)[j]? ≠ (bytesBits x)[j]? := by
    by_contra hc
    push Not at hc
    refine C85_two_bits_detected y x i k ⟨hlen, by omega, fun p => ⟨fun hp => ?_, ?_⟩⟩ (by omega) hcrc
    · by_contra hp'
      have a1 := hmin p hp
      have a2 := hmax p hp
      exact hp (hc p (by omega) (by omega))
    · rintro (rfl | rfl)
      · exact hi
      · exact hk
  obtain ⟨j, h1, h2, h3⟩ := hj
  refine ⟨i, j, k, h1, h2, hik, fun p hp => ?_⟩
  simp only [List.mem_cons, List.not_mem_nil, or_false] at hp
  rcases hp with rfl | rfl | rfl
  · exact hi
  · exact h3
  · exact hk

/-- The stream of `C86_same_length_false` meets the hypotheses. -/
example : ∃ i j k : Nat, i < j ∧ j < k ∧ i + 32 ≤ k ∧
    ∀ p ∈ [i, j, k], (bytesBits (dmgIn.take 16 ++ (dmgIn.drop 8).take 8))[p]? ≠ (bytesBits dmgIn)[p]? := by
  obtain ⟨-, -, h, -, hne⟩ := C86_same_length_false .little
  obtain ⟨ops, R, h1, h2⟩ := C15_sw_crc_checked _ _ _ _ _ _ h
  have hc : crc dmgIn = crc (List.take 24 (dmgIn.take 16 ++ (dmgIn.drop 8).take 8)) := by decide +kernel
  rw [← hc] at h2
  exact C86_noticed_partial .little 0 0 _ _ dmgIn ops _ R h1 h2 (by decide) 24 _ (.inl h) (by decide) (by decide)

end Lib842.Props
