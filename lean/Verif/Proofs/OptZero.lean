import Verif.Proofs.OptDict
import Verif.Proofs.Minimal
/-!
# Zero groups and the dictionary of the optimised compressor

If every other group of 8 bytes is zero, the dictionary only ever holds positions of zero groups.
-/

namespace Lib842
open Spec

/-- Groups with even numbers have no zero half-word, groups with odd numbers are zero. -/
def Holes (x : List Byte) : Prop :=
  ∀ i, 16 * i + 16 ≤ x.length → slice x (16 * i + 8) 8 = List.replicate 8 0#8 ∧
    ∀ j, j < 4 → slice x (16 * i + 2 * j) 2 ≠ [0#8, 0#8]

/-- The hash tables only hold positions in groups with odd numbers. -/
def ZInv (T : OTab) : Prop :=
  ∀ n, SizeOk n → ∀ h, T.ht n h = -1#16 ∨ (T.ht n h).toNat * n / 8 % 2 = 1

theorem ZInv.init : ZInv .init := by
  intro n hn h
  left
  rcases hn with rfl | rfl | rfl <;> rfl

theorem ZInv.pair {T : OTab} (h : ZInv T) (x : List Byte) {pos : Nat} (h16 : pos % 16 = 0) :
    ZInv (((T.rehash x pos).next pos).next (pos + 8)) := by
  have hw : ∀ m, m < 1024 → (BitVec.ofNat 16 m).toNat = m := fun m hm => by
    rw [BitVec.toNat_ofNat, Nat.mod_eq_of_lt (by omega)]
  intro n hn v
  have hold := h n hn v
  rcases hn with rfl | rfl | rfl
  · simp only [OTab.ht, if_true, OTab.next] at hold ⊢
    generalize ((T.rehash x pos).hashes 0).toNat = a0
    generalize ((T.rehash x pos).hashes 1).toNat = a1
    generalize ((T.rehash x pos).hashes 2).toNat = a2
    generalize ((T.rehash x pos).hashes 3).toNat = a3
    have hr : (T.rehash x pos).ht16 = T.ht16 := rfl
    rw [hr]
    unfold upd
    by_cases h3 : v = a3
    · right; rw [if_pos h3, hw _ (by omega)]; omega
    by_cases h2 : v = a2
    · right; rw [if_neg h3, if_pos h2, hw _ (by omega)]; omega
    by_cases h1 : v = a1
    · right; rw [if_neg h3, if_neg h2, if_pos h1, hw _ (by omega)]; omega
    by_cases h0 : v = a0
    · right; rw [if_neg h3, if_neg h2, if_neg h1, if_pos h0, hw _ (by omega)]; omega
    simp only [if_neg h3, if_neg h2, if_neg h1, if_neg h0]
    exact hold
  · simp only [OTab.ht, show (4 : Nat) ≠ 2 by omega, if_true, if_false, OTab.next] at hold ⊢
    generalize ((T.rehash x pos).hashes 4).toNat = a0
    generalize ((T.rehash x pos).hashes 5).toNat = a1
    have hr : (T.rehash x pos).ht32 = T.ht32 := rfl
    rw [hr]
    unfold upd
    by_cases h1 : v = a1
    · right; rw [if_pos h1, hw _ (by omega)]; omega
    by_cases h0 : v = a0
    · right; rw [if_neg h1, if_pos h0, hw _ (by omega)]; omega
    simp only [if_neg h1, if_neg h0]
    exact hold
  · simp only [OTab.ht, show (8 : Nat) ≠ 2 by omega, show (8 : Nat) ≠ 4 by omega, if_false, OTab.next] at hold ⊢
    generalize ((T.rehash x pos).hashes 6).toNat = a0
    have hr : (T.rehash x pos).ht64 = T.ht64 := rfl
    rw [hr]
    unfold upd
    by_cases h0 : v = a0
    · right; rw [if_pos h0, hw _ (by omega)]; omega
    simp only [if_neg h0]
    exact hold

theorem slice_zero_sub {x : List Byte} {p a n : Nat} (h : a + n ≤ 8) (hz : slice x p 8 = List.replicate 8 0#8) :
    slice x (p + a) n = List.replicate n 0#8 := by
  rw [slice_slice h, hz]
  unfold slice
  rw [List.drop_replicate, List.take_replicate]
  congr 1; omega

/-- Nothing is found in a group with an even number. -/
theorem ZInv.miss {T : OTab} (h : ZInv T) {x : List Byte} (hx : Holes x) {pos : Nat} (h16 : pos % 16 = 0)
    (hpos : pos + 16 ≤ x.length) {k : Nat} (hk : k < 7) : T.valid x pos k = false := by
  have hn := slotSize_ok hk
  have hfit := slot_fits hk
  unfold OTab.valid OTab.find
  rw [Option.isSome_eq_false_iff, Option.isNone_iff_eq_none]
  by_contra hc
  obtain ⟨i, hi⟩ := Option.ne_none_iff_exists'.1 hc
  have hi' := hi
  unfold hit at hi
  simp only at hi
  split at hi
  swap
  · cases hi
  rename_i hcond
  have heq := Option.some.inj hi
  obtain ⟨-, r, href, hs⟩ := hit_sound hn (by omega) (by omega) (by omega) hi'
  have hodd : i * slotSize k / 8 % 2 = 1 := by
    rcases h _ hn (hashOne (dictBits (slotSize k)) (dataAt x (slotSize k) (pos + slotOff k))).toNat with h1 | h1
    · rw [h1] at hcond
      exact absurd hcond.1 (by decide)
    · rwa [heq] at h1
  have hrl := RingRef_lt href
  have hmod := href.1
  -- `r` lies in a zero group
  have hr8 : r / 8 % 2 = 1 ∧ r % slotSize k = 0 := by
    revert hmod hodd
    generalize slotSize k = n at hn
    unfold ringSize
    rcases hn with rfl | rfl | rfl <;> simp only [indexBits] <;> norm_num <;> omega
  have hsub : r % 8 + slotSize k ≤ 8 := by
    have h2 := hr8.2
    revert h2
    generalize slotSize k = n at hn
    rcases hn with rfl | rfl | rfl <;> omega
  have hz := (hx (r / 16) (by omega)).1
  have hzero := slice_zero_sub hsub hz
  rw [show 16 * (r / 16) + 8 + r % 8 = r by omega, hs] at hzero
  -- but the value does not start with a zero half-word
  have hoff : slotOff k % 2 = 0 ∧ slotOff k / 2 < 4 := by interval_cases k <;> simp [slotOff]
  have h2 : 2 ≤ slotSize k := by rcases hn with h | h | h <;> omega
  have hnz := (hx (pos / 16) (by omega)).2 (slotOff k / 2) hoff.2
  apply hnz
  rw [show 16 * (pos / 16) + 2 * (slotOff k / 2) = pos + slotOff k by omega]
  have : slice x (pos + slotOff k) 2 = (slice x (pos + slotOff k) (slotSize k)).take 2 := by
    unfold slice
    rw [List.take_take, Nat.min_eq_left h2]
  rw [this, hzero, List.take_replicate, Nat.min_eq_left h2]
  rfl

theorem codeOf_none {v : Nat → Bool} (h : ∀ k, k < 7 → v k = false) : codeOf v = 0 := by
  have : codeOf v = codeOf (fun _ => false) := by
    unfold codeOf
    rw [keysOf_congr (v' := fun _ => false) h]
  rw [this]
  decide

theorem ZInv.blockOp {T : OTab} (h : ZInv T) {x : List Byte} (hx : Holes x) {pos : Nat} (h16 : pos % 16 = 0)
    (hpos : pos + 16 ≤ x.length) : (T.blockOp x pos).bits.length = 69 := by
  rw [T.blockOp_bits (by omega) (by omega), codeOf_none fun k hk => h.miss hx h16 hpos hk]
  decide

theorem Holes.nonzero {x : List Byte} (hx : Holes x) {pos : Nat} (h16 : pos % 16 = 0) (hpos : pos + 16 ≤ x.length) :
    slice x pos 8 ≠ List.replicate 8 0#8 := by
  intro hz
  refine (hx (pos / 16) (by omega)).2 0 (by omega) ?_
  rw [show 16 * (pos / 16) + 2 * 0 = pos + 0 by omega]
  exact slice_zero_sub (by omega) hz

theorem Holes.zero {x : List Byte} (hx : Holes x) {pos : Nat} (h16 : pos % 16 = 0) (hpos : pos + 16 ≤ x.length) :
    slice x (pos + 8) 8 = List.replicate 8 0#8 := by
  have := (hx (pos / 16) (by omega)).1
  rwa [show 16 * (pos / 16) + 8 = pos + 8 by omega] at this

theorem orefLoop_holes {x : List Byte} (hx : Holes x) (k : Nat) {T : OTab} (hT : ZInv T) {pos : Nat}
    (h16 : pos % 16 = 0) (hpos : pos + 16 * k ≤ x.length) {last : Option (List Byte)}
    (hlast : last = none ∨ last = some (List.replicate 8 0#8)) :
    ((orefLoop x (2 * k) T pos last 0).flatMap Op.bits).length = 74 * k := by
  induction k generalizing T pos last with
  | zero => rfl
  | succ k ih =>
    have hnz := hx.nonzero h16 (by omega)
    have hz := hx.zero h16 (by omega)
    have h1 : some (slice x pos 8) ≠ last := by
      rcases hlast with rfl | rfl
      · simp
      · intro h; exact hnz (Option.some.inj h)
    have h2 : ¬ some (slice x (pos + 8) 8) = some (slice x pos 8) := by
      intro h; rw [hz] at h; exact hnz (Option.some.inj h).symm
    have hrest := ih (hT.pair x h16) (pos := pos + 8 + 8) (by omega) (by omega)
      (last := some (slice x (pos + 8) 8)) (.inr (by rw [hz]))
    have hb := hT.blockOp hx h16 (by omega)
    rw [show 2 * (k + 1) = 2 * k + 1 + 1 by omega, orefLoop, orefLoop]
    simp only [orefStep, if_neg h1, if_neg hnz, if_neg h2, if_pos hz, repOps, if_true, List.nil_append,
      List.flatMap_append, List.flatMap_cons, List.flatMap_nil, List.length_append, List.append_nil, hb, hrest]
    simp only [Op.bits, length_bitsOf]
    omega

/-- The ops for such data take 74 bits for every two groups. -/
theorem orefOps_holes {x : List Byte} (hx : Holes x) (h16 : x.length % 16 = 0) :
    ((orefOps x).flatMap Op.bits).length = 74 * (x.length / 16) := by
  unfold orefOps
  rw [show x.length / 8 = 2 * (x.length / 16) by omega]
  exact orefLoop_holes hx _ .init rfl (by omega) (.inl rfl)

end Lib842
