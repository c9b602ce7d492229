import Verif.Proofs.Words
import Verif.Proofs.Monad
import Verif.Model.SwComp
/-!
# `add_bits` appends bits
-/

namespace Lib842
open Spec

namespace Writer

/-- Number of bits written. -/
def P (w : Writer) : Nat := 8 * w.out + w.bit
/-- Capacity in bytes. -/
def cap (w : Writer) : Nat := w.buf.length
/-- The bits written so far. -/
def wbits (w : Writer) : List Bool := (bytesBits w.buf).take w.P

structure Inv (w : Writer) : Prop where
  len : w.out + w.olen = w.buf.length
  bit : w.bit < 8
  part : w.bit ≠ 0 → 1 ≤ w.olen ∧
    (bytesBits w.buf).take (8 * (w.out + 1)) = w.wbits ++ List.replicate (8 - w.bit) false

theorem Inv.P_le {w : Writer} (h : w.Inv) : w.P ≤ 8 * w.cap := by
  have h1 := h.len; have h2 := h.bit
  unfold P cap
  by_cases hb : w.bit = 0
  · omega
  · have := (h.part hb).1; omega

theorem Inv.length_wbits {w : Writer} (h : w.Inv) : w.wbits.length = w.P := by
  have := h.P_le
  simp [wbits, cap] at *; omega

end Writer

/-- `f` appends the bits `B` if they fit, and otherwise fails with `ENOSPC`. -/
structure Emits (f : M Writer Unit) (B : List Bool) : Prop where
  ok : ∀ w, w.Inv → w.P + B.length ≤ 8 * w.cap →
    ∃ w', f w = .ok () w' ∧ w'.Inv ∧ w'.cap = w.cap ∧ w'.wbits = w.wbits ++ B
  full : ∀ w, w.Inv → 8 * w.cap < w.P + B.length →
    ∃ w', f w = .err .ENOSPC w' ∧ w'.Inv ∧ w'.cap = w.cap ∧ w.P ≤ w'.P

theorem Emits.bind {f g : M Writer Unit} {A B : List Bool} (hf : Emits f A) (hg : Emits g B) :
    Emits (f >>= fun _ => g) (A ++ B) := by
  constructor
  · intro w hw hfit
    simp only [List.length_append] at hfit
    obtain ⟨w1, h1, hi1, hc1, hb1⟩ := hf.ok w hw (by omega)
    have hP : w1.P = w.P + A.length := by
      rw [← hi1.length_wbits, hb1, List.length_append, hw.length_wbits]
    obtain ⟨w2, h2, hi2, hc2, hb2⟩ := hg.ok w1 hi1 (by rw [hc1, hP]; omega)
    refine ⟨w2, ?_, hi2, hc2.trans hc1, by rw [hb2, hb1, List.append_assoc]⟩
    rw [M.bind_ok h1, h2]
  · intro w hw hfull
    simp only [List.length_append] at hfull
    by_cases hfit : w.P + A.length ≤ 8 * w.cap
    · obtain ⟨w1, h1, hi1, hc1, hb1⟩ := hf.ok w hw hfit
      have hP : w1.P = w.P + A.length := by
        rw [← hi1.length_wbits, hb1, List.length_append, hw.length_wbits]
      obtain ⟨w2, h2, hi2, hc2, hp2⟩ := hg.full w1 hi1 (by rw [hc1, hP]; omega)
      refine ⟨w2, ?_, hi2, hc2.trans hc1, by omega⟩
      rw [M.bind_ok h1, h2]
    · obtain ⟨w1, h1, hi1, hc1, hp1⟩ := hf.full w hw (by omega)
      exact ⟨w1, M.bind_err h1, hi1, hc1, hp1⟩

theorem bmask_get (b : Nat) (hb : b < 8) : ∃ m : BitVec 8, bmask[b]? = some m ∧
    ∀ j, j < 8 → m.getLsbD j = decide (8 - b ≤ j) := by
  interval_cases b <;> exact ⟨_, rfl, by decide⟩

theorem packed_bits {K b n sh : Nat} {cur : Byte} {d : BitVec 64} {x : Nat} (hK : 1 ≤ K) (hb : b < 8)
    (hn : 1 ≤ n)
    (hsh : b + n + sh = 8 * K) (hd : d.toNat < 2 ^ n)
    (hx : ∀ i, i < 8 * K → x.testBit i =
      ((decide (8 * K - 8 ≤ i) && (cur.getLsbD (i - (8 * K - 8)) && decide (8 - b ≤ i - (8 * K - 8)))) ||
       (decide (sh ≤ i) && d.getLsbD (i - sh)))) :
    bitsOf (8 * K) x = (bitsOf 8 cur.toNat).take b ++ bitsOf n d.toNat ++ List.replicate sh false := by
  apply List.ext_getElem
  · simp; omega
  · intro j h1 h2
    simp only [length_bitsOf] at h1
    have hdz : ∀ k, n ≤ k → d.getLsbD k = false := by
      intro k hk
      rw [← BitVec.testBit_toNat]
      exact Nat.testBit_lt_two_pow (Nat.lt_of_lt_of_le hd (Nat.pow_le_pow_right (by omega) hk))
    rw [getElem_bitsOf, hx _ (by omega)]
    by_cases hj1 : j < b
    · rw [List.getElem_append_left (by simp; omega), List.getElem_append_left (by simp; omega),
        List.getElem_take, getElem_bitsOf, BitVec.testBit_toNat, hdz (8 * K - 1 - j - sh) (by omega)]
      have e1 : 8 * K - 1 - j - (8 * K - 8) = 8 - 1 - j := by omega
      rw [e1]
      rw [decide_eq_true (show 8 * K - 8 ≤ 8 * K - 1 - j by omega),
        decide_eq_true (show 8 - b ≤ 8 - 1 - j by omega)]
      simp
    · have hcur : (decide (8 * K - 8 ≤ 8 * K - 1 - j) &&
          (cur.getLsbD (8 * K - 1 - j - (8 * K - 8)) &&
            decide (8 - b ≤ 8 * K - 1 - j - (8 * K - 8)))) = false := by
        rw [decide_eq_false (show ¬ 8 - b ≤ 8 * K - 1 - j - (8 * K - 8) by omega)]
        simp
      rw [hcur, Bool.false_or]
      by_cases hj2 : j < b + n
      · have hl : ((bitsOf 8 cur.toNat).take b).length = b := by simp; omega
        rw [List.getElem_append_left (by simp; omega), List.getElem_append_right (by omega),
          getElem_bitsOf, BitVec.testBit_toNat, decide_eq_true (show sh ≤ 8 * K - 1 - j by omega),
          Bool.true_and]
        congr 1
        rw [hl]; omega
      · rw [List.getElem_append_right (by simp; omega), List.getElem_replicate,
          decide_eq_false (show ¬ sh ≤ 8 * K - 1 - j by omega), Bool.false_and]

/-- Replacing `K` bytes at `out` by bytes with bits `X`. -/
theorem take_replace {buf bs : List Byte} {out : Nat} (h : out + bs.length ≤ buf.length) (k : Nat)
    (hk : k ≤ 8 * bs.length) :
    (bytesBits (buf.take out ++ bs ++ buf.drop (out + bs.length))).take (8 * out + k) =
      (bytesBits buf).take (8 * out) ++ (bytesBits bs).take k := by
  rw [bytesBits_append, bytesBits_append, bytesBits_take, List.append_assoc, List.take_append]
  have hl : ((bytesBits buf).take (8 * out)).length = 8 * out := by simp; omega
  rw [hl, List.take_of_length_le (by omega), Nat.add_sub_cancel_left,
    List.take_append_of_le_length (by simp; omega)]

theorem step_store {w : Writer} (hw : w.Inv) {n sh K : Nat} {d : BitVec 64} {cur : Byte}
    (hn : 1 ≤ n) (hfit : divRoundUp (w.bit + n) 8 ≤ w.olen)
    (hcur : w.buf[w.out]? = some cur)
    {bs : List Byte} (hbs : bs.length = K) (hK : K ≤ w.olen) (hsh : w.bit + n + sh = 8 * K)
    (hbits : bytesBits bs =
      (bitsOf 8 cur.toNat).take w.bit ++ bitsOf n d.toNat ++ List.replicate sh false) :
    ∃ w', (if w.bit + n > 7 then
        { w with buf := w.buf.take w.out ++ bs ++ w.buf.drop (w.out + bs.length),
                 out := w.out + (w.bit + n) / 8,
                 olen := w.olen - (w.bit + n) / 8, bit := (w.bit + n) % 8 }
      else { w with buf := w.buf.take w.out ++ bs ++ w.buf.drop (w.out + bs.length),
                    bit := w.bit + n : Writer }) = w' ∧
      w'.Inv ∧ w'.cap = w.cap ∧ w'.wbits = w.wbits ++ bitsOf n d.toNat := by
  have hlen := hw.len
  have hbit := hw.bit
  have hle : w.out + bs.length ≤ w.buf.length := by omega
  have hlt : w.out < w.buf.length := by
    rw [List.getElem?_eq_some_iff] at hcur; exact hcur.1
  have hcur' : w.buf[w.out] = cur := by
    rw [List.getElem?_eq_getElem hlt] at hcur; simpa using hcur
  have hfit' : (w.bit + n + 7) / 8 ≤ w.olen := by simpa [divRoundUp] using hfit
  -- old bits
  have hold : w.wbits = (bytesBits w.buf).take (8 * w.out) ++ (bitsOf 8 cur.toNat).take w.bit := by
    unfold Writer.wbits Writer.P
    rw [List.take_add, ← bytesBits_drop, List.drop_eq_getElem_cons hlt, bytesBits_cons, hcur',
      List.take_append_of_le_length (by simp; omega)]
  have hnew : ∀ k, k ≤ 8 * K →
      (bytesBits (w.buf.take w.out ++ bs ++ w.buf.drop (w.out + bs.length))).take (8 * w.out + k) =
      (bytesBits w.buf).take (8 * w.out) ++
        ((bitsOf 8 cur.toNat).take w.bit ++ bitsOf n d.toNat ++ List.replicate sh false).take k := by
    intro k hk
    rw [take_replace hle k (by rw [hbs]; exact hk), hbits]
  have hlb : ((bitsOf 8 cur.toNat).take w.bit ++ bitsOf n d.toNat).length = w.bit + n := by
    simp; omega
  have hmain : (bytesBits (w.buf.take w.out ++ bs ++ w.buf.drop (w.out + bs.length))).take
      (8 * w.out + (w.bit + n)) = w.wbits ++ bitsOf n d.toNat := by
    rw [hnew _ (by omega), List.take_append_of_le_length (by omega),
      List.take_of_length_le (l := (bitsOf 8 cur.toNat).take w.bit ++ bitsOf n d.toNat) (by omega),
      hold, List.append_assoc]
  have hpart : ∀ r, r ≤ sh → (bytesBits (w.buf.take w.out ++ bs ++ w.buf.drop (w.out + bs.length))).take
      (8 * w.out + (w.bit + n + r)) = w.wbits ++ bitsOf n d.toNat ++ List.replicate r false := by
    intro r hr
    rw [hnew _ (by omega), List.take_append, hlb,
      List.take_of_length_le (l := (bitsOf 8 cur.toNat).take w.bit ++ bitsOf n d.toNat) (by omega),
      hold]
    simp [List.take_replicate, hr]
  have hcap : (w.buf.take w.out ++ bs ++ w.buf.drop (w.out + bs.length)).length = w.buf.length := by
    simp; omega
  split
  · rename_i h7
    refine ⟨_, rfl, ⟨?_, ?_, ?_⟩, ?_, ?_⟩
    · simp only [hcap]
      omega
    · simp only; omega
    · intro hne
      simp only at hne
      refine ⟨by simp only; omega, ?_⟩
      unfold Writer.wbits Writer.P
      simp only
      rw [show 8 * (w.out + (w.bit + n) / 8) + (w.bit + n) % 8 = 8 * w.out + (w.bit + n) by omega,
        hmain, show 8 * (w.out + (w.bit + n) / 8 + 1) =
          8 * w.out + (w.bit + n + (8 - (w.bit + n) % 8)) by omega, hpart _ (by omega)]
    · unfold Writer.cap; simp only [hcap]
    · unfold Writer.wbits Writer.P at *
      simp only
      rw [show 8 * (w.out + (w.bit + n) / 8) + (w.bit + n) % 8 = 8 * w.out + (w.bit + n) by omega,
        hmain]
  · rename_i h7
    refine ⟨_, rfl, ⟨?_, ?_, ?_⟩, ?_, ?_⟩
    · simp only [hcap]
      omega
    · simp only; omega
    · intro hne
      simp only at hne
      refine ⟨by simp only; omega, ?_⟩
      unfold Writer.wbits Writer.P
      simp only
      rw [hmain, show 8 * (w.out + 1) =
          8 * w.out + (w.bit + n + (8 - (w.bit + n))) by omega, hpart _ (by omega)]
    · unfold Writer.cap; simp only [hcap]
    · unfold Writer.wbits Writer.P at *
      simp only
      rw [hmain]

end Lib842
