import Verif.Proofs.Size
/-!
# Sizes of parts and of the whole
-/

namespace Lib842.Chunks
open Spec

/-- Bits for group `i` in `sizeBits` -/
def cost (x : List Byte) (i : Nat) : Nat := if reps x i = 0 then groupBits x i else swRep (reps x i)

def tail (x : List Byte) : Nat := if x.length % 8 = 0 then 0 else 8 + 8 * (x.length % 8)

theorem sizeBits_eq (x : List Byte) : sizeBits x = psum (cost x) (x.length / 8) + tail x + 37 := by
  unfold sizeBits
  rw [psum_list]
  rfl

/-! ## What a part says about the whole -/

theorem sub_left {p q : List Byte} {o n : Nat} (h : o + n ≤ p.length) : ((p ++ q).drop o).take n = (p.drop o).take n := by
  rw [List.drop_append_of_le_length (by omega), List.take_append_of_le_length (by rw [List.length_drop]; omega)]

theorem sub_right {p q : List Byte} (o n : Nat) : ((p ++ q).drop (p.length + o)).take n = (q.drop o).take n := by
  rw [← List.drop_drop, List.drop_left]

theorem seen_left {p q : List Byte} {pos n o : Nat} (hn : 0 < n) (hp : pos ≤ p.length) (ho : o + n ≤ p.length) :
    seen (p ++ q) pos n o = seen p pos n o := by
  unfold seen
  rw [Bool.eq_iff_iff, List.any_eq_true, List.any_eq_true]
  refine exists_congr fun k => and_congr_right fun hk => ?_
  rw [List.mem_range] at hk
  have hk1 : n * (k + 1) ≤ pos := by
    have := (Nat.le_div_iff_mul_le hn).1 (show k + 1 ≤ pos / n from hk)
    rw [Nat.mul_comm]; exact this
  rw [Nat.mul_add] at hk1
  rw [sub_left ho, sub_left (by omega)]

theorem seen_right {p q : List Byte} {pos n o c : Nat} (hn : 0 < n) (hp : p.length = n * c) (h : seen q pos n o = true) :
    seen (p ++ q) (p.length + pos) n (p.length + o) = true := by
  unfold seen at h ⊢
  rw [List.any_eq_true] at h ⊢
  obtain ⟨k, hk, hd⟩ := h
  rw [List.mem_range] at hk
  rw [decide_eq_true_iff] at hd
  refine ⟨c + k, ?_, ?_⟩
  · rw [List.mem_range, hp, Nat.mul_add_div hn]; omega
  · rw [decide_eq_true_iff, Nat.mul_add, ← hp, sub_right, sub_right]
    exact ⟨by omega, hd.2⟩

theorem seen_far {p q : List Byte} {pos n o c : Nat} (hn : 0 < n) (hp : p.length = n * c) (hr : ringSize n ≤ pos)
    (h : seen (p ++ q) (p.length + pos) n (p.length + o) = true) : seen q pos n o = true := by
  unfold seen at h ⊢
  rw [List.any_eq_true] at h ⊢
  obtain ⟨k, hk, hd⟩ := h
  rw [List.mem_range] at hk
  rw [decide_eq_true_iff] at hd
  have hck : c ≤ k := by
    have : n * c ≤ n * k := by omega
    exact Nat.le_of_mul_le_mul_left this hn
  have hkc : n * k = p.length + n * (k - c) := by rw [hp, ← Nat.mul_add]; congr 1; omega
  rw [hkc, sub_right, sub_right] at hd
  refine ⟨k - c, ?_, ?_⟩
  · rw [List.mem_range]
    rw [hp, Nat.mul_add_div hn] at hk; omega
  · rw [decide_eq_true_iff]
    exact ⟨by omega, hd.2⟩

theorem group_left {p q : List Byte} {i : Nat} (h : 8 * i + 8 ≤ p.length) : group (p ++ q) i = group p i := sub_left h

theorem group_right {p q : List Byte} {a : Nat} (ha : p.length = 8 * a) (i : Nat) : group (p ++ q) (a + i) = group q i := by
  unfold group
  rw [Nat.mul_add, ← ha, sub_right]

theorem zero_left {p q : List Byte} {i : Nat} (h : 8 * i + 8 ≤ p.length) : zeroGroup (p ++ q) i = zeroGroup p i := by
  unfold zeroGroup; rw [sub_left h]

theorem zero_right {p q : List Byte} {a : Nat} (ha : p.length = 8 * a) (i : Nat) : zeroGroup (p ++ q) (a + i) = zeroGroup q i := by
  unfold zeroGroup; rw [Nat.mul_add, ← ha, sub_right]

theorem reps_left {p q : List Byte} {i : Nat} (h : 8 * i + 8 ≤ p.length) : reps (p ++ q) i = reps p i := by
  induction i with
  | zero => rfl
  | succ i ih => rw [reps, reps, group_left h, group_left (by omega), ih (by omega)]

theorem reps_le (x : List Byte) (i : Nat) : reps x i ≤ i := by
  induction i with
  | zero => exact Nat.le_refl _
  | succ i ih => rw [reps]; split <;> omega

/-- Repetitions at the start of the second part that continue a run of the first one -/
theorem reps_right {p q : List Byte} {a : Nat} (ha : p.length = 8 * a) (i : Nat) :
    reps (p ++ q) (a + i) = if reps q i = i then reps (p ++ q) a + i else reps q i := by
  induction i with
  | zero => rfl
  | succ i ih =>
    have hr := reps_le q i
    rw [← Nat.add_assoc, reps, reps, Nat.add_assoc, group_right ha, group_right ha, ih]
    by_cases hg : group q (i + 1) = group q i
    · rw [if_pos hg, if_pos hg]
      by_cases he : reps q i = i
      · rw [if_pos he, if_pos (by omega)]; omega
      · rw [if_neg he, if_neg (by omega)]
    · rw [if_neg hg, if_neg hg, if_neg (by omega)]

theorem cost_left {p q : List Byte} {i : Nat} (h : 8 * i + 8 ≤ p.length) : cost (p ++ q) i = cost p i := by
  unfold cost groupBits halfBits wordBits
  rw [reps_left h, zero_left h]
  rw [seen_left (n := 8) (by omega) (by omega) (by omega), seen_left (n := 4) (by omega) (by omega) (by omega),
    seen_left (n := 2) (by omega) (by omega) (by omega), seen_left (n := 2) (by omega) (by omega) (by omega),
    seen_left (n := 4) (by omega) (by omega) (by omega), seen_left (n := 2) (by omega) (by omega) (by omega),
    seen_left (n := 2) (by omega) (by omega) (by omega)]

theorem groupBits_ge (x : List Byte) (i : Nat) : 5 ≤ groupBits x i := by
  unfold groupBits; split
  · omega
  · split <;> omega

theorem groupBits_le (x : List Byte) (i : Nat) : groupBits x i ≤ 69 := by
  unfold groupBits halfBits wordBits
  repeat' split
  all_goals omega

theorem if_mono {a b : Bool} (h : b = true → a = true) {u v w z : Nat} (h1 : u ≤ w) (h2 : v ≤ z) (h3 : u ≤ z) :
    (if a then u else v) ≤ if b then w else z := by
  cases a <;> cases b <;> simp_all

theorem word_le (x : List Byte) (pos o : Nat) : 8 ≤ wordBits x pos o ∧ wordBits x pos o ≤ 16 := by
  unfold wordBits; split <;> omega

theorem half_le (x : List Byte) (pos o : Nat) : 9 ≤ halfBits x pos o ∧ halfBits x pos o ≤ 32 := by
  have := word_le x pos o
  have := word_le x pos (o + 2)
  unfold halfBits; split <;> omega

theorem half_right {p q : List Byte} {a : Nat} (ha : p.length = 8 * a) (pos o : Nat) :
    halfBits (p ++ q) (p.length + pos) (p.length + o) ≤ halfBits q pos o := by
  have hw : ∀ o, wordBits (p ++ q) (p.length + pos) (p.length + o) ≤ wordBits q pos o := by
    intro o
    exact if_mono (seen_right (n := 2) (c := 4 * a) (by omega) (by omega)) (by omega) (by omega) (by omega)
  have h1 := hw o
  have h2 := hw (o + 2)
  have h3 := word_le q pos o
  have h4 := word_le q pos (o + 2)
  rw [← Nat.add_assoc] at h2
  exact if_mono (seen_right (n := 4) (c := 2 * a) (by omega) (by omega)) (by omega) (by omega) (by omega)

/-- More history never makes a group longer. -/
theorem groupBits_right {p q : List Byte} {a : Nat} (ha : p.length = 8 * a) (i : Nat) : groupBits (p ++ q) (a + i) ≤ groupBits q i := by
  unfold groupBits
  rw [zero_right ha, Nat.mul_add, ← ha]
  split
  · exact Nat.le_refl _
  · have h1 := half_right (q := q) ha (8 * i) (8 * i)
    have h2 := half_right (q := q) ha (8 * i) (8 * i + 4)
    have h3 := half_le q (8 * i) (8 * i)
    have h4 := half_le q (8 * i) (8 * i + 4)
    rw [← Nat.add_assoc] at h2
    exact if_mono (seen_right (n := 8) (c := a) (by omega) (by omega)) (by omega) (by omega) (by omega)

/-- And not by more than 56 bits shorter. -/
theorem groupBits_loss {p q : List Byte} {a : Nat} (ha : p.length = 8 * a) (i : Nat) : groupBits q i ≤ groupBits (p ++ q) (a + i) + 56 := by
  have h69 := groupBits_le q i
  cases hz : zeroGroup q i with
  | true =>
    have h5 : groupBits q i = 5 := by unfold groupBits; rw [hz]; rfl
    omega
  | false =>
    have h13 : 13 ≤ groupBits (p ++ q) (a + i) := by
      have h3 := half_le (p ++ q) (8 * (a + i)) (8 * (a + i))
      unfold groupBits
      rw [zero_right ha, hz, if_neg (by decide)]
      split <;> omega
    omega

/-- After 2 KiB of the second part the first part does not matter. -/
theorem groupBits_far {p q : List Byte} {a : Nat} (ha : p.length = 8 * a) {i : Nat} (hi : 256 ≤ i) : groupBits (p ++ q) (a + i) = groupBits q i := by
  have hs : ∀ n c o, 0 < n → p.length = n * c → ringSize n ≤ 2048 → seen (p ++ q) (p.length + 8 * i) n (p.length + o) = seen q (8 * i) n o := by
    intro n c o hn hp hr
    rw [Bool.eq_iff_iff]
    exact ⟨seen_far hn hp (by omega), seen_right hn hp⟩
  unfold groupBits halfBits wordBits
  rw [zero_right ha, Nat.mul_add, ← ha]
  simp only [Nat.add_assoc]
  rw [hs 8 a _ (by omega) (by omega) (by decide)]
  simp only [hs 4 (2 * a) _ (by omega) (by omega) (by decide), hs 2 (4 * a) _ (by omega) (by omega) (by decide)]

/-! ## Sums -/

theorem rep_sum (b k : Nat) : psum (fun i => swRep (b + i)) k = 11 * ((b + k + 62) / 64 - (b + 62) / 64) := by
  induction k with
  | zero => simp [psum]
  | succ k ih =>
    rw [psum, ih]
    unfold swRep
    split <;> omega

theorem run_broken {q : List Byte} {i j : Nat} (h : reps q i ≠ i) (hij : i ≤ j) : reps q j ≠ j := by
  induction j with
  | zero => obtain rfl : i = 0 := by omega
            exact h
  | succ j ih =>
    by_cases he : i = j + 1
    · subst he; exact h
    · have h1 := ih (by omega)
      have h2 := reps_le q j
      rw [reps]
      split <;> omega

theorem cost_right {p q : List Byte} {a : Nat} (ha : p.length = 8 * a) {i : Nat} (h : reps q i ≠ i ∨ reps (p ++ q) a = 0) :
    cost (p ++ q) (a + i) ≤ cost q i ∧ cost q i ≤ cost (p ++ q) (a + i) + if i < 256 then 56 else 0 := by
  have hr : reps (p ++ q) (a + i) = reps q i := by
    rw [reps_right ha]
    split
    · next he => rcases h with h | h <;> omega
    · rfl
  unfold cost
  rw [hr]
  split
  · refine ⟨groupBits_right ha i, ?_⟩
    split
    · exact groupBits_loss ha i
    · rw [groupBits_far ha (by omega)]; omega
  · exact ⟨Nat.le_refl _, by omega⟩

theorem sums {p q : List Byte} {a : Nat} (ha : p.length = 8 * a) (m : Nat) :
    (reps (p ++ q) a ≠ 0 ∧ (∀ i < m, reps q i = i) ∧
      psum (fun i => cost (p ++ q) (a + i)) m = 11 * ((reps (p ++ q) a + m + 62) / 64 - (reps (p ++ q) a + 62) / 64) ∧
      psum (cost q) m = if m = 0 then 0 else groupBits q 0 + 11 * ((m + 62) / 64)) ∨
    ((reps (p ++ q) a = 0 ∨ ∃ i < m, reps q i ≠ i) ∧
      psum (fun i => cost (p ++ q) (a + i)) m ≤ psum (cost q) m + 6 ∧
      psum (cost q) m ≤ psum (fun i => cost (p ++ q) (a + i)) m + 80 + 56 * min m 256) := by
  induction m with
  | zero =>
    by_cases h0 : reps (p ++ q) a = 0
    · exact .inr ⟨.inl h0, by simp [psum], by simp [psum]⟩
    · exact .inl ⟨h0, by intro i hi; omega, by simp [psum], by simp [psum]⟩
  | succ m ih =>
    rw [psum, psum]
    rcases ih with ⟨hB, hall, h1, h2⟩ | ⟨hor, h1, h2⟩
    · have h5 := groupBits_ge q 0
      have h69 := groupBits_le q 0
      by_cases hm : reps q m = m
      · refine .inl ⟨hB, fun i hi => ?_, ?_, ?_⟩
        · by_cases he : i = m
          · rw [he]; exact hm
          · exact hall i (by omega)
        · rw [h1, cost, reps_right ha, if_pos hm, if_neg (by omega)]
          unfold swRep
          split <;> omega
        · rw [h2, cost, hm, if_neg (Nat.succ_ne_zero m)]
          by_cases h0 : m = 0
          · subst h0; simp
          · rw [if_neg h0, if_neg h0]
            unfold swRep
            split <;> omega
      · have hm0 : m ≠ 0 := by intro h0; subst h0; exact hm rfl
        rw [if_neg hm0] at h2
        have hc := cost_right (q := q) ha (.inl hm)
        refine .inr ⟨.inr ⟨m, by omega, hm⟩, ?_, ?_⟩
        · rw [h1, h2]; omega
        · rw [h1, h2]
          by_cases hi : m < 256
          · rw [if_pos hi] at hc; omega
          · rw [if_neg hi] at hc; omega
    · have hm : reps q m ≠ m ∨ reps (p ++ q) a = 0 := by
        rcases hor with h | ⟨i, hi, hne⟩
        · exact .inr h
        · exact .inl (run_broken hne (by omega))
      have hc := cost_right (q := q) ha hm
      refine .inr ⟨?_, by omega, ?_⟩
      · rcases hor with h | ⟨i, hi, hne⟩
        · exact .inl h
        · exact .inr ⟨i, by omega, hne⟩
      · by_cases hi : m < 256
        · rw [if_pos hi] at hc; omega
        · rw [if_neg hi] at hc; omega

/-- Bits of two parts and of the whole -/
theorem two {p q : List Byte} (hp : p.length % 8 = 0) :
    sizeBits (p ++ q) + 31 ≤ sizeBits p + sizeBits q ∧ sizeBits p + sizeBits q ≤ sizeBits (p ++ q) + 14453 := by
  obtain ⟨a, ha⟩ : ∃ a, p.length = 8 * a := ⟨p.length / 8, by omega⟩
  have hl : (p ++ q).length / 8 = a + q.length / 8 := by rw [List.length_append]; omega
  have ht : tail (p ++ q) = tail q := by
    unfold tail
    rw [show (p ++ q).length % 8 = q.length % 8 by rw [List.length_append]; omega]
  have htp : tail p = 0 := by unfold tail; rw [if_pos hp]
  rw [sizeBits_eq, sizeBits_eq, sizeBits_eq, hl, ht, htp, psum_add, show p.length / 8 = a by omega]
  rw [psum_congr (f := cost (p ++ q)) (g := cost p) (n := a) fun i hi => cost_left (by omega)]
  have h5 := groupBits_ge q 0
  have h69 := groupBits_le q 0
  rcases sums (q := q) ha (q.length / 8) with ⟨hB, -, h1, h2⟩ | ⟨-, h1, h2⟩
  · rw [h1, h2]
    by_cases h0 : q.length / 8 = 0
    · rw [if_pos h0, h0]; omega
    · rw [if_neg h0]; omega
  · omega

end Lib842.Chunks
