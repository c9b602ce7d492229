import Verif.Proofs.AddBits
import Verif.Model.SwDecomp
/-!
# `next_bits` consumes bits
-/

namespace Lib842
open Spec

namespace Decomp

structure RInv (p : Decomp) : Prop where
  len : p.pos + p.ilen = p.inp.length
  bit : p.bit < 8
  part : p.bit ≠ 0 → 1 ≤ p.ilen

/-- The unread input bits. -/
def rest (p : Decomp) : List Bool := (bytesBits p.inp).drop (8 * p.pos + p.bit)

/-- Same output side. -/
structure SameOut (p p' : Decomp) : Prop where
  inp : p'.inp = p.inp
  buf : p'.buf = p.buf
  out : p'.out = p.out
  olen : p'.olen = p.olen

theorem SameOut.trans {a b c : Decomp} (h1 : SameOut a b) (h2 : SameOut b c) : SameOut a c :=
  ⟨h2.inp.trans h1.inp, h2.buf.trans h1.buf, h2.out.trans h1.out, h2.olen.trans h1.olen⟩

theorem RInv.length_rest {p : Decomp} (h : p.RInv) :
    p.rest.length + (8 * p.pos + p.bit) = 8 * p.inp.length := by
  have h1 := h.len; have h2 := h.bit
  have : 8 * p.pos + p.bit ≤ 8 * p.inp.length := by
    by_cases hb : p.bit = 0
    · omega
    · have := h.part hb; omega
  simp [rest]; omega

end Decomp

/-- `f` reads the next `n` bits as a number, or fails with `EOVERFLOW`. -/
structure Reads (f : M Decomp (BitVec 64)) (n : Nat) : Prop where
  ok : ∀ p, p.RInv → n ≤ p.rest.length →
    ∃ v p', f p = .ok v p' ∧ p'.RInv ∧ Decomp.SameOut p p' ∧ v.toNat < 2 ^ n ∧
      p.rest = bitsOf n v.toNat ++ p'.rest
  eof : ∀ p, p.RInv → p.rest.length < n →
    ∃ p', f p = .err .EOVERFLOW p' ∧ p'.RInv ∧ Decomp.SameOut p p'

theorem or_shl_toNat {d t : BitVec 64} {a b : Nat} (hab : a + b ≤ 64) (hd : d.toNat < 2 ^ b)
    (ht : t.toNat < 2 ^ a) :
    (d ||| t <<< b).toNat < 2 ^ (a + b) ∧
    bitsOf (a + b) (d ||| t <<< b).toNat = bitsOf a t.toNat ++ bitsOf b d.toNat := by
  have hdz : ∀ k, b ≤ k → d.getLsbD k = false := by
    intro k hk
    rw [← BitVec.testBit_toNat]
    exact Nat.testBit_lt_two_pow (Nat.lt_of_lt_of_le hd (Nat.pow_le_pow_right (by omega) hk))
  have htz : ∀ k, a ≤ k → t.getLsbD k = false := by
    intro k hk
    rw [← BitVec.testBit_toNat]
    exact Nat.testBit_lt_two_pow (Nat.lt_of_lt_of_le ht (Nat.pow_le_pow_right (by omega) hk))
  have hbit : ∀ i, (d ||| t <<< b).toNat.testBit i =
      if i < b then d.getLsbD i else t.getLsbD (i - b) := by
    intro i
    rw [BitVec.testBit_toNat, BitVec.getLsbD_or, BitVec.getLsbD_shiftLeft]
    by_cases h : i < b
    · simp [h]
    · rw [hdz i (by omega), if_neg h]
      by_cases h2 : i < 64
      · simp [h, h2]
      · rw [htz (i - b) (by omega)]; simp
  constructor
  · apply Nat.lt_pow_two_of_testBit
    intro i hi
    rw [hbit, if_neg (by omega), htz _ (by omega)]
  · rw [bitsOf_append]
    congr 1
    · apply bitsOf_congr
      intro i hi
      rw [Nat.testBit_shiftRight, hbit, if_neg (by omega), BitVec.testBit_toNat]
      congr 1; omega
    · apply bitsOf_congr
      intro i hi
      rw [hbit, if_pos hi, BitVec.testBit_toNat]

theorem Reads.split {f : Nat → M Decomp (BitVec 64)} {n s : Nat}
    (hs1 : 1 ≤ s) (hsn : s < n) (hn : n ≤ 64)
    (hf : ∀ n', 1 ≤ n' → n' < n → Reads (f n') n') :
    Reads (splitNextBits f n s) n := by
  unfold splitNextBits
  rw [if_neg (by omega)]
  constructor
  · intro p hp hle
    obtain ⟨v1, p1, h1, hi1, hs1', hv1, hr1⟩ := (hf (n - s) (by omega) (by omega)).ok p hp (by omega)
    have hl1 : p.rest.length = (n - s) + p1.rest.length := by rw [hr1]; simp
    obtain ⟨v2, p2, h2, hi2, hs2, hv2, hr2⟩ := (hf s hs1 hsn).ok p1 hi1 (by omega)
    have hor := or_shl_toNat (d := v2) (t := v1) (a := n - s) (b := s) (by omega) hv2 hv1
    rw [Nat.sub_add_cancel (by omega)] at hor
    refine ⟨v2 ||| v1 <<< s, p2, ?_, hi2, hs1'.trans hs2, hor.1, ?_⟩
    · rw [M.bind_ok h1, M.bind_ok h2]; rfl
    · rw [hor.2, hr1, hr2, List.append_assoc]
  · intro p hp hlt
    by_cases hle : n - s ≤ p.rest.length
    · obtain ⟨v1, p1, h1, hi1, hs1', hv1, hr1⟩ := (hf (n - s) (by omega) (by omega)).ok p hp hle
      have hl1 : p.rest.length = (n - s) + p1.rest.length := by rw [hr1]; simp
      obtain ⟨p2, h2, hi2, hs2⟩ := (hf s hs1 hsn).eof p1 hi1 (by omega)
      refine ⟨p2, ?_, hi2, hs1'.trans hs2⟩
      rw [M.bind_ok h1, M.bind_err h2]
    · obtain ⟨p1, h1, hi1, hs1'⟩ := (hf (n - s) (by omega) (by omega)).eof p hp (by omega)
      exact ⟨p1, M.bind_err h1, hi1, hs1'⟩

/-- Extracting a field from a big-endian word. -/
theorem field_bits {W b n x : Nat} (hW : b + n ≤ W) (h64 : W ≤ 64) {v : BitVec 64}
    (hv : ∀ i, i < b + n → v.getLsbD i = x.testBit (i + (W - (b + n)))) (hn : 1 ≤ n) :
    (v &&& genmask (n - 1) 0).toNat < 2 ^ n ∧
    bitsOf n (v &&& genmask (n - 1) 0).toNat = ((bitsOf W x).drop b).take n := by
  rw [and_genmask_toNat _ _ hn (by omega)]
  refine ⟨Nat.mod_lt _ (Nat.two_pow_pos n), ?_⟩
  rw [bitsOf_mod]
  apply List.ext_getElem
  · simp; omega
  · intro i h1 h2
    simp only [length_bitsOf] at h1
    rw [getElem_bitsOf, List.getElem_take, List.getElem_drop, getElem_bitsOf, BitVec.testBit_toNat,
      hv _ (by omega)]
    congr 1; omega

/-- Number of bytes loaded by `peekBits`. -/
def peekLen (bits : Nat) : Nat := if bits ≤ 8 then 1 else if bits ≤ 16 then 2 else if bits ≤ 32 then 4 else 8

theorem drop_take_slice (l : List Bool) (a K b n : Nat) (h : b + n ≤ K) :
    (((l.drop a).take K).drop b).take n = (l.drop (a + b)).take n := by
  rw [List.drop_take, List.drop_drop, List.take_take]
  congr 1; omega

theorem peekBits_ok (e : Endian) {inp : List Byte} {pos b n : Nat} (hn : 1 ≤ n)
    (h64 : b + n ≤ 64) (hfit : pos + peekLen (b + n) ≤ inp.length) :
    ∃ v, peekBits e inp pos (b + n) = some v ∧ (v &&& genmask (n - 1) 0).toNat < 2 ^ n ∧
      bitsOf n (v &&& genmask (n - 1) 0).toNat = ((bytesBits inp).drop (8 * pos + b)).take n := by
  unfold peekLen at hfit
  unfold peekBits
  by_cases h8 : b + n ≤ 8
  · rw [if_pos h8] at hfit
    rw [if_pos h8]
    have hlt : pos < inp.length := by omega
    rw [List.getElem?_eq_getElem hlt]
    refine ⟨_, rfl, ?_⟩
    have := field_bits (W := 8) (b := b) (n := n) (x := (inp[pos]).toNat) h8 (by omega)
      (v := ((inp[pos]).setWidth 64 : BitVec 64) >>> (8 - (b + n))) (by
        intro i hi
        rw [BitVec.getLsbD_ushiftRight, BitVec.getLsbD_setWidth, BitVec.testBit_toNat,
          decide_eq_true (by omega), Bool.true_and]
        congr 1; omega) hn
    refine ⟨this.1, this.2.trans ?_⟩
    have hb : bitsOf 8 (inp[pos]).toNat = ((bytesBits inp).drop (8 * pos)).take 8 := by
      rw [← bytesBits_drop, List.drop_eq_getElem_cons hlt, bytesBits_cons, List.take_append]
      simp [List.take_of_length_le (l := bitsOf 8 (inp[pos]).toNat) (i := 8) (by simp)]
    rw [hb, drop_take_slice _ _ _ _ _ h8]
  rw [if_neg h8] at hfit
  rw [if_neg h8]
  by_cases h16 : b + n ≤ 16
  · rw [if_pos h16] at hfit
    rw [if_pos h16]
    obtain ⟨x, hx, hb⟩ := load16_ok e (m := inp) (i := pos) hfit
    rw [hx]
    refine ⟨_, rfl, ?_⟩
    have := field_bits (W := 16) (b := b) (n := n) (x := (swapBe16 e x).toNat) h16 (by omega)
      (v := ((swapBe16 e x).setWidth 64 : BitVec 64) >>> (16 - (b + n))) (by
        intro i hi
        rw [BitVec.getLsbD_ushiftRight, BitVec.getLsbD_setWidth, BitVec.testBit_toNat,
          decide_eq_true (by omega), Bool.true_and]
        congr 1; omega) hn
    refine ⟨this.1, this.2.trans ?_⟩
    rw [hb, drop_take_slice _ _ _ _ _ h16]
  rw [if_neg h16] at hfit
  rw [if_neg h16]
  by_cases h32 : b + n ≤ 32
  · rw [if_pos h32] at hfit
    rw [if_pos h32]
    obtain ⟨x, hx, hb⟩ := load32_ok e (m := inp) (i := pos) hfit
    rw [hx]
    refine ⟨_, rfl, ?_⟩
    have := field_bits (W := 32) (b := b) (n := n) (x := (swapBe32 e x).toNat) h32 (by omega)
      (v := ((swapBe32 e x).setWidth 64 : BitVec 64) >>> (32 - (b + n))) (by
        intro i hi
        rw [BitVec.getLsbD_ushiftRight, BitVec.getLsbD_setWidth, BitVec.testBit_toNat,
          decide_eq_true (by omega), Bool.true_and]
        congr 1; omega) hn
    refine ⟨this.1, this.2.trans ?_⟩
    rw [hb, drop_take_slice _ _ _ _ _ h32]
  rw [if_neg h32] at hfit
  rw [if_neg h32]
  obtain ⟨x, hx, hb⟩ := load64_ok e (m := inp) (i := pos) hfit
  rw [hx]
  refine ⟨_, rfl, ?_⟩
  have := field_bits (W := 64) (b := b) (n := n) (x := (swapBe64 e x).toNat) h64 (by omega)
    (v := (swapBe64 e x) >>> (64 - (b + n))) (by
      intro i hi
      rw [BitVec.getLsbD_ushiftRight, BitVec.testBit_toNat]
      congr 1; omega) hn
  refine ⟨this.1, this.2.trans ?_⟩
  rw [hb, drop_take_slice _ _ _ _ _ h64]

theorem nextBitsF_reads (e : Endian) (fuel n : Nat) (hn1 : 1 ≤ n) (hn : n ≤ 64) (hf : n < fuel) :
    Reads (nextBitsF e fuel n) n := by
  induction fuel generalizing n with
  | zero => omega
  | succ fuel ih =>
    have rec' : ∀ n', 1 ≤ n' → n' < n → Reads (nextBitsF e fuel n') n' :=
      fun n' h1 h2 => ih n' h1 (by omega) (by omega)
    constructor
    · intro p hp hle
      have hlen := hp.len
      have hbit := hp.bit
      have hrl := hp.length_rest
      by_cases h1 : p.bit + n > 64
      · obtain ⟨v, p', h, hrest⟩ := (Reads.split (s := 32) (by omega) (by omega) hn rec').ok p hp hle
        refine ⟨v, p', ?_, hrest⟩
        unfold nextBitsF
        rw [M.get_bind_apply]
        simp only [if_neg (show ¬ n > 64 by omega), if_pos h1]
        exact h
      by_cases h2 : p.ilen < 8 ∧ p.bit + n > 32 ∧ p.bit + n ≤ 56
      · obtain ⟨v, p', h, hrest⟩ := (Reads.split (s := 16) (by omega) (by omega) hn rec').ok p hp hle
        refine ⟨v, p', ?_, hrest⟩
        unfold nextBitsF
        rw [M.get_bind_apply]
        simp only [if_neg (show ¬ n > 64 by omega), if_neg h1, if_pos h2]
        exact h
      by_cases h3 : p.ilen < 4 ∧ p.bit + n > 16 ∧ p.bit + n ≤ 24
      · obtain ⟨v, p', h, hrest⟩ := (Reads.split (s := 8) (by omega) (by omega) hn rec').ok p hp hle
        refine ⟨v, p', ?_, hrest⟩
        unfold nextBitsF
        rw [M.get_bind_apply]
        simp only [if_neg (show ¬ n > 64 by omega), if_neg h1, if_neg h2, if_pos h3]
        exact h
      have hpk : peekLen (p.bit + n) ≤ p.ilen := by
        unfold peekLen
        split
        · omega
        split
        · omega
        split
        · omega
        · omega
      obtain ⟨v, hv, hvlt, hvb⟩ := peekBits_ok e (inp := p.inp) (pos := p.pos) (b := p.bit) (n := n)
        hn1 (by omega) (by omega)
      have hstep : ∃ p', (if p.bit + n > 7 then
            { p with pos := p.pos + (p.bit + n) / 8, ilen := p.ilen - (p.bit + n) / 8,
                     bit := (p.bit + n) % 8 }
          else { p with bit := p.bit + n : Decomp }) = p' ∧ p'.RInv ∧ Decomp.SameOut p p' ∧
          p'.rest = p.rest.drop n := by
        split
        · refine ⟨_, rfl, ⟨?_, ?_, ?_⟩, ⟨rfl, rfl, rfl, rfl⟩, ?_⟩
          · simp only; omega
          · simp only; omega
          · simp only; intro hne; omega
          · unfold Decomp.rest
            simp only
            rw [List.drop_drop]
            congr 1; omega
        · refine ⟨_, rfl, ⟨?_, ?_, ?_⟩, ⟨rfl, rfl, rfl, rfl⟩, ?_⟩
          · simp only; omega
          · simp only; omega
          · simp only; intro hne; omega
          · unfold Decomp.rest
            simp only
            rw [List.drop_drop]
            congr 1; omega
      obtain ⟨p', hp', hi', hso, hrest⟩ := hstep
      refine ⟨_, p', ?_, hi', hso, hvlt, ?_⟩
      · unfold nextBitsF
        rw [M.get_bind_apply]
        simp only [if_neg (show ¬ n > 64 by omega), if_neg h1, if_neg h2, if_neg h3]
        rw [if_neg (by unfold divRoundUp; omega)]
        rw [M.access_bind_some (g := fun q : Decomp => peekBits e q.inp q.pos (p.bit + n)) hv,
          M.modify_bind_apply, M.pure_apply]
        rw [← hp']
      · rw [hvb, hrest]
        show p.rest = p.rest.take n ++ p.rest.drop n
        rw [List.take_append_drop]
    · intro p hp hlt
      have hlen := hp.len
      have hbit := hp.bit
      have hrl := hp.length_rest
      by_cases h1 : p.bit + n > 64
      · obtain ⟨p', h, hrest⟩ := (Reads.split (s := 32) (by omega) (by omega) hn rec').eof p hp hlt
        refine ⟨p', ?_, hrest⟩
        unfold nextBitsF
        rw [M.get_bind_apply]
        simp only [if_neg (show ¬ n > 64 by omega), if_pos h1]
        exact h
      by_cases h2 : p.ilen < 8 ∧ p.bit + n > 32 ∧ p.bit + n ≤ 56
      · obtain ⟨p', h, hrest⟩ := (Reads.split (s := 16) (by omega) (by omega) hn rec').eof p hp hlt
        refine ⟨p', ?_, hrest⟩
        unfold nextBitsF
        rw [M.get_bind_apply]
        simp only [if_neg (show ¬ n > 64 by omega), if_neg h1, if_pos h2]
        exact h
      by_cases h3 : p.ilen < 4 ∧ p.bit + n > 16 ∧ p.bit + n ≤ 24
      · obtain ⟨p', h, hrest⟩ := (Reads.split (s := 8) (by omega) (by omega) hn rec').eof p hp hlt
        refine ⟨p', ?_, hrest⟩
        unfold nextBitsF
        rw [M.get_bind_apply]
        simp only [if_neg (show ¬ n > 64 by omega), if_neg h1, if_neg h2, if_pos h3]
        exact h
      refine ⟨p, ?_, hp, ⟨rfl, rfl, rfl, rfl⟩⟩
      unfold nextBitsF
      rw [M.get_bind_apply]
      simp only [if_neg (show ¬ n > 64 by omega), if_neg h1, if_neg h2, if_neg h3]
      rw [if_pos (by unfold divRoundUp; omega)]
      rfl

theorem nextBits_reads (e : Endian) (n : Nat) (hn1 : 1 ≤ n) (hn : n ≤ 64) : Reads (nextBits e n) n :=
  nextBitsF_reads e (n + 1) n hn1 hn (by omega)

end Lib842
