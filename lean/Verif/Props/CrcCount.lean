import Mathlib.Data.FinEnum
import Mathlib.Data.Fintype.BigOperators
import Mathlib.Data.Set.Card
import Mathlib.Tactic.Choose
import Verif.Proofs.Expansion
import Verif.Props.Crc
import Verif.Props.Opt
import Verif.Props.Sw
/-!
# How often damage is missed: exactly once in 2^32 (C106)
-/

namespace Lib842.Props
open Spec

/-- The four bytes of a 32-bit value -/
def fourBytes (v : BitVec 32) : List Byte :=
  [BitVec.ofNat 8 (v.toNat / 2 ^ 24), BitVec.ofNat 8 (v.toNat / 2 ^ 16), BitVec.ofNat 8 (v.toNat / 2 ^ 8), BitVec.ofNat 8 v.toNat]

theorem fourBytes_inj {v w : BitVec 32} (h : fourBytes v = fourBytes w) : v = w := by
  simp only [fourBytes, List.cons.injEq, and_true] at h
  obtain ⟨h1, h2, h3, h4⟩ := h
  have e1 := congrArg BitVec.toNat h1
  have e2 := congrArg BitVec.toNat h2
  have e3 := congrArg BitVec.toNat h3
  have e4 := congrArg BitVec.toNat h4
  simp only [BitVec.toNat_ofNat] at e1 e2 e3 e4
  have := v.isLt
  have := w.isLt
  apply BitVec.eq_of_toNat_eq
  omega

theorem fill_unique {a b s s' : List Byte} (hs : s.length = 4) (hs' : s'.length = 4) (h : crc (a ++ s ++ b) = crc (a ++ s' ++ b)) : s = s' := by
  by_contra hne
  refine C18_burst_detected (a ++ s ++ b) (a ++ s' ++ b) ⟨by simp [hs, hs'], fun hc => hne ?_, 8 * a.length, fun i hi => ?_⟩ h
  · rw [List.append_assoc, List.append_assoc] at hc
    exact List.append_cancel_right (List.append_cancel_left hc)
  · by_contra hc
    apply hi
    rw [bytesBits_append, bytesBits_append, bytesBits_append, bytesBits_append]
    by_cases h1 : i < 8 * a.length
    · rw [List.append_assoc, List.append_assoc, List.getElem?_append_left (by simpa using h1), List.getElem?_append_left (by simpa using h1)]
    · rw [List.getElem?_append_right (by simp [hs]; omega), List.getElem?_append_right (by simp [hs']; omega)]
      simp [hs, hs']

/-- C106: any four consecutive bytes can be used to give the data any checksum, in exactly one way. -/
theorem C106_unique_fill (a b : List Byte) (c : BitVec 32) : ∃! s : List Byte, s.length = 4 ∧ crc (a ++ s ++ b) = c := by
  have hsurj : Function.Surjective fun v : BitVec 32 => crc (a ++ fourBytes v ++ b) :=
    Finite.surjective_of_injective fun v w h => fourBytes_inj (fill_unique (by rfl) (by rfl) h)
  obtain ⟨v, hv⟩ := hsurj c
  exact ⟨fourBytes v, ⟨rfl, hv⟩, fun s hs => fill_unique hs.1 rfl (hs.2.trans hv.symm)⟩

theorem ncard_bytes (n : Nat) : {x : List Byte | x.length = n}.ncard = 256 ^ n := by
  have h := card_vector (α := Byte) n
  rw [← Nat.card_eq_fintype_card, ← Nat.card_eq_fintype_card (α := Byte)] at h
  have h2 : Nat.card Byte = 256 := by
    rw [Nat.card_congr (⟨BitVec.toFin, BitVec.ofFin, fun _ => rfl, fun _ => rfl⟩ : BitVec 8 ≃ Fin (2 ^ 8)), Nat.card_fin]
    rfl
  rw [h2] at h
  exact h

/-- C106: the checksum is perfectly balanced: of the data of `n` bytes, exactly one in 2^32 has a given one. -/
theorem C106_count (n : Nat) (hn : 4 ≤ n) (c : BitVec 32) :
    {x : List Byte | x.length = n ∧ crc x = c}.ncard * 2 ^ 32 = {x : List Byte | x.length = n}.ncard := by
  have h : {x : List Byte | x.length = n ∧ crc x = c}.ncard = {p : List Byte | p.length = n - 4}.ncard := by
    refine Set.ncard_congr (fun x _ => x.take (n - 4)) ?_ ?_ ?_
    · rintro x ⟨h1, -⟩
      show (x.take (n - 4)).length = n - 4
      rw [List.length_take]
      omega
    · rintro x y ⟨h1, h2⟩ ⟨h3, h4⟩ hxy
      have e1 := List.take_append_drop (n - 4) x
      have e2 := List.take_append_drop (n - 4) y
      have := fill_unique (a := x.take (n - 4)) (b := []) (s := x.drop (n - 4)) (s' := y.drop (n - 4)) (by rw [List.length_drop]; omega)
        (by rw [List.length_drop]; omega)
        (by rw [List.append_nil, List.append_nil, e1]; rw [show x.take (n - 4) = y.take (n - 4) from hxy, e2, h2, h4])
      rw [← e1, ← e2, this, show x.take (n - 4) = y.take (n - 4) from hxy]
    · rintro p hp
      have hp' : p.length = n - 4 := hp
      obtain ⟨s, ⟨h1, h2⟩, -⟩ := C106_unique_fill p [] c
      rw [List.append_nil] at h2
      refine ⟨p ++ s, ⟨by rw [List.length_append]; omega, h2⟩, ?_⟩
      show (p ++ s).take (n - 4) = p
      rw [← hp', List.take_left]
  rw [h, ncard_bytes, ncard_bytes, show (2 : Nat) ^ 32 = 256 ^ 4 by norm_num, ← pow_add]
  congr 1
  omega

/-- A way to write data as a stream whose stored checksum is `c` (`enc`), whatever that of the data is -/
def WritesWith (n : Nat) (c : BitVec 32) (enc : List Byte → List Byte) : Prop :=
  ∀ d, d.length = n → ∃ ops rest, Expands ops d ∧ (∀ op ∈ ops, op.isShort = false) ∧ (enc d).length % 8 = 0 ∧
    bytesBits (enc d) = ops.flatMap Op.bits ++ bitsOf 5 0x1e ++ bitsOf 32 c.toNat ++ rest

/-- C106 for `sw842_decompress`: of the streams that hold all data of `n` bytes with the same stored checksum, it accepts exactly one in 2^32.  So if
damage makes all data equally likely it is missed with probability 2^-32, whatever the damaged stream looks like. -/
theorem C106_sw_missed (e : Endian) (addr n : Nat) (hn : 4 ≤ n) (hm : n ≤ 0xffffffff) (c : BitVec 32) (enc : List Byte → List Byte)
    (henc : WritesWith n c enc) (buf : List Byte) (hb : n ≤ buf.length) :
    {d : List Byte | d.length = n ∧ ∃ b, sw842Decompress e addr (enc d) buf = .ret none n b}.ncard * 2 ^ 32 =
      {d : List Byte | d.length = n}.ncard := by
  rw [← C106_count n hn c]
  congr 2
  ext d
  refine and_congr_right fun (hd : d.length = n) => ?_
  obtain ⟨ops, rest, h1, -, -, h2⟩ := henc d hd
  obtain ⟨b, -, -, h3⟩ := sw842Decompress_of e addr (enc d) buf h1 (c := c) (R := rest) (by rw [h2]; simp only [List.append_assoc])
  rw [if_neg (by omega), hd] at h3
  constructor
  · rintro ⟨b', h4⟩
    by_contra hc
    rw [if_pos (Ne.symm hc), h4] at h3
    cases h3
  · intro hc
    rw [if_neg (by simp [hc]), if_neg (by omega)] at h3
    exact ⟨b, h3⟩

/-- C106 for `optsw842_decompress`, any alignment -/
theorem C106_opt_missed (e : Endian) (ain aout n : Nat) (hn : 4 ≤ n) (hm : n ≤ 0xffffffff) (c : BitVec 32) (enc : List Byte → List Byte)
    (henc : WritesWith n c enc) (buf : List Byte) (hb : n ≤ buf.length) :
    {d : List Byte | d.length = n ∧ ∃ b, optsw842Decompress e ain aout (enc d) buf = .ret none n b}.ncard * 2 ^ 32 =
      {d : List Byte | d.length = n}.ncard := by
  rw [← C106_count n hn c]
  congr 2
  ext d
  refine and_congr_right fun (hd : d.length = n) => ?_
  obtain ⟨ops, rest, h1, h5, h6, h2⟩ := henc d hd
  constructor
  · rintro ⟨b', h4⟩
    by_contra hc
    obtain ⟨b, h3⟩ := C15_opt_wrong_crc e ain aout (enc d) buf ops d c rest h1 h5 (by omega) (Ne.symm hc) h6 h2
    rw [h4] at h3
    cases h3
  · intro hc
    have hdec : HwDecodes (enc d) d := ⟨ops, rest, h1, h5, by rw [h2, trailer, show crc d = c from hc]; simp only [List.append_assoc]⟩
    by_cases hal : ain % 8 ≠ 0 ∨ aout % 8 ≠ 0
    · rw [optDecompress_sw _ _ hal]
      obtain ⟨b, h7, -⟩ := (C13_sw_accepts_exactly_format e aout (enc d) buf d).2 ⟨hdec.decodes, by omega, by omega⟩
      rw [hd] at h7
      exact ⟨b, h7⟩
    · obtain ⟨b, h7, -⟩ := (C14_opt_accepts_exactly_format e ain aout (enc d) buf d (by omega)).2
        ⟨by rw [show 8 * ((enc d).length / 8) = (enc d).length by omega, List.take_length]; exact hdec, by omega⟩
      rw [hd] at h7
      exact ⟨b, h7⟩

/-- There are such ways to write data, for every checksum and every number of whole groups. -/
example (k : Nat) (c : BitVec 32) : ∃ enc, WritesWith (8 * k) c enc := by
  have h : ∀ d : List Byte, ∃ s : List Byte, d.length = 8 * k → ∃ ops rest, Expands ops d ∧ (∀ op ∈ ops, op.isShort = false) ∧ s.length % 8 = 0 ∧
      bytesBits s = ops.flatMap Op.bits ++ bitsOf 5 0x1e ++ bitsOf 32 c.toNat ++ rest := by
    intro d
    by_cases hd : d.length = 8 * k
    · obtain ⟨h1, h2⟩ := orefOps_expands (x := d) (by omega)
      let l := (orefOps d).flatMap Op.bits ++ bitsOf 5 0x1e ++ bitsOf 32 c.toNat
      obtain ⟨s, h3, h4⟩ := exists_bytes (8 * l.length) (l ++ List.replicate (63 * l.length) false) (by simp; omega)
      exact ⟨s, fun _ => ⟨_, _, h1, h2, by omega, h3⟩⟩
    · exact ⟨[], fun h => absurd h hd⟩
  choose enc henc using h
  exact ⟨enc, henc⟩

end Lib842.Props
