import Verif.Proofs.OptZero
/-!
# Groups that evict each other from the dictionary of the optimised compressor, and the serial
compressor on the same data
-/

namespace Lib842
open Spec

theorem length_trailer (x : List Byte) : (trailer x).length = 37 := by
  unfold trailer
  rw [List.length_append, length_bitsOf, length_bitsOf]

/-! ## One update of the hash tables -/

theorem OTab.next_ht (T : OTab) {pos : Nat} (h8 : pos % 8 = 0) {n : Nat} (hn : SizeOk n) (v : Nat) :
    ((∃ k, k < 7 ∧ slotSize k = n ∧ (T.hashes k).toNat = v) ∧
      ((T.next pos).ht n v).toNat * n / 8 % 2 = pos / 8 % 2) ∨
    ((∀ k, k < 7 → slotSize k = n → (T.hashes k).toNat ≠ v) ∧ (T.next pos).ht n v = T.ht n v) := by
  have hw : ∀ m, m < 1024 → (BitVec.ofNat 16 m).toNat = m := fun m hm => by
    rw [BitVec.toNat_ofNat, Nat.mod_eq_of_lt (by omega)]
  rcases hn with rfl | rfl | rfl
  · simp only [OTab.ht, if_true, OTab.next]
    unfold upd
    by_cases h3 : v = (T.hashes 3).toNat
    · refine .inl ⟨⟨3, by omega, rfl, h3.symm⟩, ?_⟩
      rw [if_pos h3, hw _ (by omega)]; omega
    by_cases h2 : v = (T.hashes 2).toNat
    · refine .inl ⟨⟨2, by omega, rfl, h2.symm⟩, ?_⟩
      rw [if_neg h3, if_pos h2, hw _ (by omega)]; omega
    by_cases h1 : v = (T.hashes 1).toNat
    · refine .inl ⟨⟨1, by omega, rfl, h1.symm⟩, ?_⟩
      rw [if_neg h3, if_neg h2, if_pos h1, hw _ (by omega)]; omega
    by_cases h0 : v = (T.hashes 0).toNat
    · refine .inl ⟨⟨0, by omega, rfl, h0.symm⟩, ?_⟩
      rw [if_neg h3, if_neg h2, if_neg h1, if_pos h0, hw _ (by omega)]; omega
    refine .inr ⟨?_, by rw [if_neg h3, if_neg h2, if_neg h1, if_neg h0]⟩
    intro k hk hs
    interval_cases k
    · exact fun h => h0 h.symm
    · exact fun h => h1 h.symm
    · exact fun h => h2 h.symm
    · exact fun h => h3 h.symm
    all_goals simp [slotSize] at hs
  · simp only [OTab.ht, show (4 : Nat) ≠ 2 by omega, if_true, if_false, OTab.next]
    unfold upd
    by_cases h1 : v = (T.hashes 5).toNat
    · refine .inl ⟨⟨5, by omega, rfl, h1.symm⟩, ?_⟩
      rw [if_pos h1, hw _ (by omega)]; omega
    by_cases h0 : v = (T.hashes 4).toNat
    · refine .inl ⟨⟨4, by omega, rfl, h0.symm⟩, ?_⟩
      rw [if_neg h1, if_pos h0, hw _ (by omega)]; omega
    refine .inr ⟨?_, by rw [if_neg h1, if_neg h0]⟩
    intro k hk hs
    interval_cases k
    case «4» => exact fun h => h0 h.symm
    case «5» => exact fun h => h1 h.symm
    all_goals simp [slotSize] at hs
  · simp only [OTab.ht, show (8 : Nat) ≠ 2 by omega, show (8 : Nat) ≠ 4 by omega, if_false, OTab.next]
    unfold upd
    by_cases h0 : v = (T.hashes 6).toNat
    · refine .inl ⟨⟨6, by omega, rfl, h0.symm⟩, ?_⟩
      rw [if_pos h0, hw _ (by omega)]; omega
    refine .inr ⟨?_, by rw [if_neg h0]⟩
    intro k hk hs
    interval_cases k
    case «6» => exact fun h => h0 h.symm
    all_goals simp [slotSize] at hs

/-! ## Groups that evict each other -/

/-- Two groups whose values have the same hashes, but which share no value. -/
structure Rivals (a b : List Byte) : Prop where
  len : a.length = 8 ∧ b.length = 8
  ab : ∀ k, k < 7 → ∃ k', k' < 7 ∧ slotSize k' = slotSize k ∧
    dictHash (slice b (slotOff k') (slotSize k)) = dictHash (slice a (slotOff k) (slotSize k))
  ba : ∀ k, k < 7 → ∃ k', k' < 7 ∧ slotSize k' = slotSize k ∧
    dictHash (slice a (slotOff k') (slotSize k)) = dictHash (slice b (slotOff k) (slotSize k))
  ne : ∀ k k', k < 7 → k' < 7 → slotSize k' = slotSize k →
    slice a (slotOff k) (slotSize k) ≠ slice b (slotOff k') (slotSize k)
  za : a ≠ List.replicate 8 0#8
  zb : b ≠ List.replicate 8 0#8

theorem Rivals.symm {a b : List Byte} (h : Rivals a b) : Rivals b a where
  len := ⟨h.len.2, h.len.1⟩
  ab := h.ba
  ba := h.ab
  ne := fun k k' hk hk' hs he => h.ne k' k hk' hk hs.symm (by rw [hs]; exact he.symm)
  za := h.zb
  zb := h.za

/-- `a` and `b` alternate. -/
def Alternates (x a b : List Byte) : Prop :=
  ∀ i, 8 * i + 8 ≤ x.length → slice x (8 * i) 8 = if i % 2 = 0 then a else b

theorem slot_exists {n s : Nat} (hn : SizeOk n) (hs : s + n ≤ 8) (h0 : s % n = 0) :
    ∃ k, k < 7 ∧ slotSize k = n ∧ slotOff k = s := by
  rcases hn with rfl | rfl | rfl
  · exact ⟨s / 2, by omega, by unfold slotSize; rw [if_pos (by omega)], by unfold slotOff; rw [if_pos (by omega)]; omega⟩
  · refine ⟨4 + s / 4, by omega, ?_, ?_⟩
    · unfold slotSize; rw [if_neg (by omega), if_pos (by omega)]
    · unfold slotOff; rw [if_neg (by omega), if_pos (by omega)]; omega
  · exact ⟨6, by omega, rfl, by rw [show s = 0 by omega]; rfl⟩

/-- Before the group at `pos`, every entry belongs to a hash of a value of the preceding group and
points to a group of the same parity as that. -/
def EInv (T : OTab) (x : List Byte) (pos : Nat) : Prop :=
  ∀ n, SizeOk n → ∀ v, T.ht n v = -1#16 ∨
    (8 ≤ pos ∧ (∃ k, k < 7 ∧ slotSize k = n ∧ hv x n (pos - 8 + slotOff k) = v) ∧
      (T.ht n v).toNat * n / 8 % 2 = (pos - 8) / 8 % 2)

theorem EInv.init (x : List Byte) : EInv .init x 0 := by
  intro n hn v
  left
  rcases hn with rfl | rfl | rfl <;> rfl

/-- The group at `pos`, the one before and the one after, as rivals -/
theorem Alternates.cur {x a b : List Byte} (hx : Alternates x a b) (hr : Rivals a b) {pos : Nat} (h8 : pos % 8 = 0)
    (hpos : pos + 8 ≤ x.length) : ∃ c d, Rivals c d ∧ slice x pos 8 = c ∧
      ∀ q, q % 8 = 0 → q + 8 ≤ x.length → q / 8 % 2 ≠ pos / 8 % 2 → slice x q 8 = d := by
  have h0 := hx (pos / 8) (by omega)
  rw [show 8 * (pos / 8) = pos by omega] at h0
  by_cases hp : pos / 8 % 2 = 0
  · refine ⟨a, b, hr, by rw [h0, if_pos hp], fun q h1 h2 h3 => ?_⟩
    have := hx (q / 8) (by omega)
    rw [show 8 * (q / 8) = q by omega, if_neg (by omega)] at this
    exact this
  · refine ⟨b, a, hr.symm, by rw [h0, if_neg hp], fun q h1 h2 h3 => ?_⟩
    have := hx (q / 8) (by omega)
    rw [show 8 * (q / 8) = q by omega, if_pos (by omega)] at this
    exact this

theorem hv_slot {x : List Byte} {pos k : Nat} (hk : k < 7) (hpos : pos + 8 ≤ x.length) :
    hv x (slotSize k) (pos + slotOff k) = dictHash (slice (slice x pos 8) (slotOff k) (slotSize k)) := by
  have hf := slot_fits hk
  rw [hv_eq (slotSize_ok hk) (by omega), slice_slice hf]

theorem EInv.next {T : OTab} {x a b : List Byte} (hx : Alternates x a b) (hr : Rivals a b) {pos : Nat}
    (h : EInv T x pos) (h8 : pos % 8 = 0) (hpos : pos + 8 ≤ x.length) :
    EInv ((T.rehash x pos).next pos) x (pos + 8) := by
  intro n hn v
  rw [Nat.add_sub_cancel]
  rcases (T.rehash x pos).next_ht h8 hn v with ⟨⟨k, hk, hs, he⟩, hpar⟩ | ⟨hno, heq⟩
  · refine .inr ⟨by omega, ⟨k, hk, hs, ?_⟩, hpar⟩
    rw [rehash_hashes T x pos k hk, hs] at he
    exact he
  · have hht : (T.rehash x pos).ht n = T.ht n := rfl
    rw [heq, hht]
    rcases h n hn v with h1 | ⟨h1, ⟨k, hk, hs, he⟩, -⟩
    · exact .inl h1
    exfalso
    -- the hash belongs to a value of the preceding group, hence to one of this group
    obtain ⟨c, d, hcd, hc, hd⟩ := hx.cur hr h8 hpos
    have hd := hd (pos - 8) (by omega) (by omega) (by omega)
    obtain ⟨k', hk', hs', hh⟩ := hcd.ba k hk
    refine hno k' hk' (hs'.trans hs) ?_
    rw [rehash_hashes T x pos k' hk', hv_slot hk' hpos, hc, hs', hh, ← hd, ← he, ← hs, hv_slot hk (by omega)]

theorem EInv.miss {T : OTab} {x a b : List Byte} (hx : Alternates x a b) (hr : Rivals a b) {pos : Nat}
    (h : EInv T x pos) (h8 : pos % 8 = 0) (hpos : pos + 8 ≤ x.length) {k : Nat} (hk : k < 7) :
    T.valid x pos k = false := by
  have hn := slotSize_ok hk
  have hfit := slot_fits hk
  unfold OTab.valid OTab.find
  rw [Option.isSome_eq_false_iff, Option.isNone_iff_eq_none]
  by_contra hc
  obtain ⟨i, hi⟩ := Option.ne_none_iff_exists'.1 hc
  have hi' := hi
  unfold hit at hi
  simp only at hi
  split at hi
  swap
  · cases hi
  rename_i hcond
  have heq := Option.some.inj hi
  obtain ⟨-, r, href, hs⟩ := hit_sound hn h8 (by omega) (by omega) hi'
  have hpar : 8 ≤ pos ∧ i * slotSize k / 8 % 2 = (pos - 8) / 8 % 2 := by
    rcases h _ hn (hashOne (dictBits (slotSize k)) (dataAt x (slotSize k) (pos + slotOff k))).toNat with h1 | ⟨h1, -, h2⟩
    · rw [h1] at hcond
      exact absurd hcond.1 (by decide)
    · rw [heq] at h2; exact ⟨h1, h2⟩
  have hrl := RingRef_lt href
  have hmod := href.1
  have hr8 : r / 8 % 2 = i * slotSize k / 8 % 2 ∧ r % slotSize k = 0 := by
    revert hmod
    generalize slotSize k = n at hn
    unfold ringSize
    rcases hn with rfl | rfl | rfl <;> simp only [indexBits] <;> norm_num <;> omega
  have hsub : r % 8 + slotSize k ≤ 8 ∧ r % 8 % slotSize k = 0 := by
    have h2 := hr8.2
    revert h2
    generalize slotSize k = n at hn
    rcases hn with rfl | rfl | rfl <;> omega
  obtain ⟨c, d, hcd, hc, hd⟩ := hx.cur hr h8 hpos
  have hd := hd (8 * (r / 8)) (by omega) (by omega) (by omega)
  obtain ⟨k', hk', hs', ho'⟩ := slot_exists hn hsub.1 hsub.2
  refine hcd.ne k k' hk hk' hs' ?_
  rw [← hc, ← hd, ← slice_slice hfit, ho', ← slice_slice hsub.1, show 8 * (r / 8) + r % 8 = r by omega, hs]

theorem EInv.blockOp {T : OTab} {x a b : List Byte} (hx : Alternates x a b) (hr : Rivals a b) {pos : Nat}
    (h : EInv T x pos) (h8 : pos % 8 = 0) (hpos : pos + 8 ≤ x.length) : (T.blockOp x pos).bits.length = 69 := by
  rw [T.blockOp_bits h8 hpos, codeOf_none fun k hk => h.miss hx hr h8 hpos hk]
  decide

theorem Rivals.differ {a b : List Byte} (h : Rivals a b) : a ≠ b := by
  intro he
  exact h.ne 6 6 (by omega) (by omega) rfl (by rw [he])

theorem orefLoop_rivals {x a b : List Byte} (hx : Alternates x a b) (hr : Rivals a b) (k : Nat) {T : OTab} {pos : Nat}
    (hT : EInv T x pos) (h8 : pos % 8 = 0) (hpos : pos + 8 * k ≤ x.length) {last : Option (List Byte)}
    (hlast : last = if pos = 0 then none else some (slice x (pos - 8) 8)) :
    ((orefLoop x k T pos last 0).flatMap Op.bits).length = 69 * k := by
  induction k generalizing T pos last with
  | zero => rfl
  | succ k ih =>
    obtain ⟨c, d, hcd, hc, hd⟩ := hx.cur hr h8 (by omega)
    have hnz : ¬ slice x pos 8 = List.replicate 8 0#8 := by rw [hc]; exact hcd.za
    have h1 : some (slice x pos 8) ≠ last := by
      rw [hlast]
      split
      · simp
      · rw [hd (pos - 8) (by omega) (by omega) (by omega), hc]
        intro h; exact hcd.differ (Option.some.inj h)
    have hrest := ih (hT.next hx hr h8 (by omega)) (by omega) (by omega)
      (last := some (slice x pos 8)) (by rw [if_neg (by omega), Nat.add_sub_cancel])
    have hb := hT.blockOp hx hr h8 (by omega)
    rw [orefLoop]
    simp only [orefStep, if_neg h1, if_neg hnz, repOps, if_true, List.nil_append,
      List.flatMap_append, List.flatMap_cons, List.flatMap_nil, List.length_append, List.append_nil, hb, hrest]
    omega

theorem orefOps_rivals {x a b : List Byte} (hx : Alternates x a b) (hr : Rivals a b) (h8 : x.length % 8 = 0) :
    ((orefOps x).flatMap Op.bits).length = 69 * (x.length / 8) := by
  unfold orefOps
  exact orefLoop_rivals hx hr _ (.init x) rfl (by omega) rfl

/-! ## The serial compressor -/

/-- A group that occurred `m` groups ago costs at most 13 bits. -/
theorem Tab.Rep.blockOp_again {T : Tab} {x : List Byte} {pos : Nat} (h : T.Rep x pos) (h8 : pos % 8 = 0)
    (hpos : pos + 8 ≤ x.length) {m : Nat} (hm : 1 ≤ m) (hm' : m ≤ 256) (hmp : 8 * m ≤ pos)
    (heq : slice x (pos - 8 * m) 8 = slice x pos 8) : (T.blockOp x pos).bits.length ≤ 13 := by
  obtain ⟨-, -, hs, -, hc⟩ := h.blockOp h8 hpos
  have hl : (x.take pos).length = pos := by rw [List.length_take, Nat.min_eq_left (by omega)]
  have href : RingRef pos 8 ((pos - 8 * m) / 8 % 256) (pos - 8 * m) := by
    refine ⟨?_, by omega, ?_⟩
    · simp only [ringSize, indexBits]; norm_num; omega
    · simp only [ringSize, indexBits]; norm_num; omega
  have hv : (Op.template 25 [.index 8 ((pos - 8 * m) / 8 % 256)]).Valid := by
    refine ⟨rfl, ?_⟩
    intro a ha
    rw [List.mem_singleton] at ha
    subst ha
    show _ < 2 ^ indexBits 8
    simp only [indexBits]; norm_num; omega
  have hst : OpStep (x.take pos) (Op.template 25 [.index 8 ((pos - 8 * m) / 8 % 256)]) (x.take (pos + 8)) := by
    refine .template (.cons (.index (o := pos - 8 * m) (by rw [hl]; exact href)) ?_)
    have : ((x.take pos).drop (pos - 8 * m)).take 8 = slice x pos 8 := by
      rw [← slice, slice_take (by omega), heq]
    rw [this, ← take_append_slice]
    exact .nil
  have := hc _ hs _ _ hv hst
  refine Nat.le_trans this ?_
  rw [template_bits_length]
  show templateBits [Action.I 8] ≤ 13
  decide

theorem refLoop_again {x : List Byte} {m : Nat} (hm : 1 ≤ m) (hm' : m ≤ 256) (k : Nat) {T : Tab} {pos : Nat}
    (hT : T.Rep x pos) (h8 : pos % 8 = 0) (hpos : pos + 8 * k ≤ x.length) (hmp : 8 * m ≤ pos)
    (hper : ∀ i, 8 * m ≤ 8 * i → 8 * i + 8 ≤ x.length → slice x (8 * i - 8 * m) 8 = slice x (8 * i) 8)
    {last : Option (List Byte)} {rc : Nat} :
    ((refLoop x k T pos last rc).flatMap Op.bits).length ≤ 13 * k + if rc = 0 then 0 else 11 := by
  have hrep : ∀ rc, ((repOps rc).flatMap Op.bits).length ≤ if rc = 0 then 0 else 11 := by
    intro rc
    unfold repOps
    split <;> simp [Op.bits]
  induction k generalizing T pos last rc with
  | zero => have := hrep rc; rw [refLoop]; omega
  | succ k ih =>
    have ih' := fun rc => ih (hT.next h8) (by omega) (by omega) (by omega) (last := some (slice x pos 8)) (rc := rc)
    have hb := hT.blockOp_again h8 (by omega) hm hm' hmp
      (by have := hper (pos / 8) (by omega) (by omega); rwa [show 8 * (pos / 8) = pos by omega] at this)
    have h1 := hrep rc
    rw [refLoop]
    unfold refStep
    simp only
    split
    · split
      · have := ih' (rc + 1)
        rw [if_neg (by omega)] at this
        simp only [List.nil_append]
        split <;> omega
      · have := ih' 0
        rw [if_pos rfl] at this
        simp only [List.flatMap_append, List.length_append, List.flatMap_cons, List.flatMap_nil, List.append_nil,
          Op.bits, length_bitsOf]
        split <;> omega
    · have := ih' 0
      rw [if_pos rfl] at this
      simp only [List.flatMap_append, List.length_append, List.flatMap_cons, List.flatMap_nil, List.append_nil]
      by_cases hz : slice x pos 8 = List.replicate 8 0#8
      · rw [if_pos hz]
        simp only [Op.bits, length_bitsOf]
        omega
      · rw [if_neg hz]
        omega

/-- Per group, before the period has begun -/
theorem refLoop_69 {x : List Byte} (k : Nat) {T : Tab} {pos : Nat} (hT : T.Rep x pos) (h8 : pos % 8 = 0)
    (m : Nat) (hpos : pos + 8 * k + 8 * m ≤ x.length) {last : Option (List Byte)} {rc : Nat}
    {C : Nat} (hC : ∀ {T : Tab} {last : Option (List Byte)} {rc : Nat}, T.Rep x (pos + 8 * m) →
      ((refLoop x k T (pos + 8 * m) last rc).flatMap Op.bits).length ≤ C + if rc = 0 then 0 else 11) :
    ((refLoop x (k + m) T pos last rc).flatMap Op.bits).length ≤ 69 * m + C + if rc = 0 then 0 else 11 := by
  have hrep : ∀ rc, ((repOps rc).flatMap Op.bits).length ≤ if rc = 0 then 0 else 11 := by
    intro rc
    unfold repOps
    split <;> simp [Op.bits]
  induction m generalizing T pos last rc with
  | zero => have := hC (T := T) (last := last) (rc := rc) hT; simpa using this
  | succ m ih =>
    have ih' := fun rc => ih (hT.next h8) (by omega) (by omega) (last := some (slice x pos 8)) (rc := rc)
      (fun {T last rc} hh => by
        have := hC (T := T) (last := last) (rc := rc) (by rwa [show pos + 8 * (m + 1) = pos + 8 + 8 * m by omega])
        rwa [show pos + 8 * (m + 1) = pos + 8 + 8 * m by omega] at this)
    have hb := (hT.blockOp h8 (by omega)).2.2.2.1
    have h1 := hrep rc
    rw [show k + (m + 1) = k + m + 1 by omega, refLoop]
    unfold refStep
    simp only
    split
    · split
      · have := ih' (rc + 1)
        rw [if_neg (by omega)] at this
        simp only [List.nil_append]
        split <;> omega
      · have := ih' 0
        rw [if_pos rfl] at this
        simp only [List.flatMap_append, List.length_append, List.flatMap_cons, List.flatMap_nil, List.append_nil,
          Op.bits, length_bitsOf]
        split <;> omega
    · have := ih' 0
      rw [if_pos rfl] at this
      simp only [List.flatMap_append, List.length_append, List.flatMap_cons, List.flatMap_nil, List.append_nil]
      by_cases hz : slice x pos 8 = List.replicate 8 0#8
      · rw [if_pos hz]
        simp only [Op.bits, length_bitsOf]
        omega
      · rw [if_neg hz]
        omega

/-- Data with a period of `m` groups costs at most 69 bits for each of the first `m` groups and 13
bits for every further one. -/
theorem refOps_again {x : List Byte} {m : Nat} (hm : 1 ≤ m) (hm' : m ≤ 256) (h8 : x.length % 8 = 0)
    (hlen : 8 * m ≤ x.length)
    (hper : ∀ i, 8 * m ≤ 8 * i → 8 * i + 8 ≤ x.length → slice x (8 * i - 8 * m) 8 = slice x (8 * i) 8) :
    ((refOps x).flatMap Op.bits).length ≤ 69 * m + 13 * (x.length / 8 - m) := by
  unfold refOps shortOps
  rw [if_pos h8, List.append_nil]
  have := refLoop_69 (x := x) (x.length / 8 - m) (.init x) (pos := 0) rfl m (by omega) (last := none) (rc := 0)
    (C := 13 * (x.length / 8 - m))
    (fun {T last rc} hT => refLoop_again hm hm' _ hT (by omega) (by omega) (by omega) hper)
  rw [show x.length / 8 - m + m = x.length / 8 by omega, if_pos rfl] at this
  exact this

/-- The same group over and over, with zero groups in between -/
theorem refLoop_holes {x : List Byte} (hx : Holes x) (k : Nat) {T : Tab} {pos : Nat} (hT : T.Rep x pos)
    (h16 : pos % 16 = 0) (hpos : pos + 16 * k ≤ x.length) {last : Option (List Byte)}
    (hper : ∀ i, 1 ≤ i → 16 * i + 16 ≤ x.length → slice x (16 * i - 16) 8 = slice x (16 * i) 8)
    (hlast : last = none ∨ last = some (List.replicate 8 0#8)) :
    ((refLoop x (2 * k) T pos last 0).flatMap Op.bits).length ≤ 18 * k + if pos = 0 then 56 else 0 := by
  induction k generalizing T pos last with
  | zero => exact Nat.zero_le _
  | succ k ih =>
    have hnz := hx.nonzero h16 (by omega)
    have hz := hx.zero h16 (by omega)
    have h1 : some (slice x pos 8) ≠ last := by
      rcases hlast with rfl | rfl
      · simp
      · intro h; exact hnz (Option.some.inj h)
    have h2 : ¬ some (slice x (pos + 8) 8) = some (slice x pos 8) := by
      intro h; rw [hz] at h; exact hnz (Option.some.inj h).symm
    have hrest := ih ((hT.next (by omega)).next (by omega)) (pos := pos + 8 + 8) (by omega) (by omega)
      (last := some (slice x (pos + 8) 8)) (.inr (by rw [hz]))
    rw [if_neg (by omega)] at hrest
    have hb : (T.blockOp x pos).bits.length ≤ 13 + if pos = 0 then 56 else 0 := by
      split
      · exact (hT.blockOp (by omega) (by omega)).2.2.2.1
      · refine hT.blockOp_again (by omega) (by omega) (m := 2) (by omega) (by omega) (by omega) ?_
        have := hper (pos / 16) (by omega) (by omega)
        rwa [show 16 * (pos / 16) = pos by omega] at this
    rw [show 2 * (k + 1) = 2 * k + 1 + 1 by omega, refLoop, refLoop]
    simp only [refStep, if_neg h1, if_neg hnz, if_neg h2, if_pos hz, repOps, if_true, List.nil_append,
      List.flatMap_append, List.flatMap_cons, List.flatMap_nil, List.length_append, List.append_nil]
    simp only [Op.bits, length_bitsOf] at hb hrest ⊢
    omega

/-! ## The two compressors compared -/

theorem refLoop_ratio (x : List Byte) (k : Nat) {T : Tab} {U : OTab} {pos : Nat} {last : Option (List Byte)} {rc : Nat}
    (hT : T.Rep x pos) (h8 : pos % 8 = 0) (hpos : pos + 8 * k ≤ x.length) :
    13 * ((orefLoop x k U pos last rc).flatMap Op.bits).length ≤
      69 * ((refLoop x k T pos last rc).flatMap Op.bits).length := by
  induction k generalizing T U pos last rc with
  | zero => rw [orefLoop, refLoop]; omega
  | succ k ih =>
    rw [refLoop, orefLoop]
    have ih' := fun (V : OTab) (rc : Nat) => ih (U := V) (last := some (slice x pos 8)) (rc := rc) (hT.next h8)
      (by omega) (by omega)
    unfold refStep orefStep
    simp only
    split
    · split
      · exact ih' _ _
      · simp only [List.flatMap_append, List.length_append]
        have := ih' (U.next pos) 0
        omega
    · split
      · simp only [List.flatMap_append, List.length_append]
        have := ih' (U.next pos) 0
        omega
      · simp only [List.flatMap_append, List.length_append, List.flatMap_cons, List.flatMap_nil, List.append_nil]
        have := ih' ((U.rehash x pos).next pos) 0
        have h1 := (U.blockOp_ok (x := x) h8 (by omega)).2.2.2
        have h2 : 13 ≤ (T.blockOp x pos).bits.length := by
          obtain ⟨hv, -⟩ := hT.blockOp h8 (by omega)
          obtain ⟨code, args, he⟩ := T.blockOp_template x pos
          rw [he] at hv ⊢
          rw [template_bits_length]
          exact template_min _ _ hv.1
        omega

theorem refOps_ratio {x : List Byte} (h : x.length % 8 = 0) :
    13 * ((orefOps x).flatMap Op.bits).length ≤ 69 * ((refOps x).flatMap Op.bits).length := by
  unfold refOps orefOps shortOps
  rw [if_pos h, List.append_nil]
  exact refLoop_ratio x _ (Tab.Rep.init x) rfl (by omega)

end Lib842
