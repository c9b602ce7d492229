import Verif.Proofs.Chunks
/-!
# 2 KiB of different words, once and twice
-/

namespace Lib842.Chunks
open Spec

/-- Word number `k` of the data: `k + 1` in two bytes -/
def word (k : Nat) : List Byte := [BitVec.ofNat 8 ((k + 1) / 256), BitVec.ofNat 8 (k + 1)]

/-- 1024 different words, 2048 bytes -/
@[irreducible] def different : List Byte := (List.range 1024).flatMap word

theorem word_inj {k l : Nat} (hk : k < 1024) (hl : l < 1024) (h : word k = word l) : k = l := by
  simp only [word, List.cons.injEq, and_true] at h
  have h1 := congrArg BitVec.toNat h.1
  have h2 := congrArg BitVec.toNat h.2
  simp only [BitVec.toNat_ofNat] at h1 h2
  omega

theorem word_ne {k : Nat} (hk : k < 1024) : word k ≠ [0#8, 0#8] := by
  intro h
  simp only [word, List.cons.injEq, and_true] at h
  have h1 := congrArg BitVec.toNat h.1
  have h2 := congrArg BitVec.toNat h.2
  simp only [BitVec.toNat_ofNat] at h1 h2
  omega

theorem flat_length (f : Nat → List Byte) (hf : ∀ k, (f k).length = 2) (m : Nat) : ((List.range m).flatMap f).length = 2 * m := by
  induction m with
  | zero => rfl
  | succ m ih => rw [List.range_succ, List.flatMap_append, List.length_append, ih]; simp [hf]; omega

theorem flat_at (f : Nat → List Byte) (hf : ∀ k, (f k).length = 2) {m k : Nat} (hk : k < m) :
    (((List.range m).flatMap f).drop (2 * k)).take 2 = f k := by
  induction m with
  | zero => omega
  | succ m ih =>
    have hl := flat_length f hf m
    rw [List.range_succ, List.flatMap_append]
    by_cases h : k = m
    · subst h
      rw [← hl, List.drop_left, List.take_of_length_le (by simp [hf])]
      simp
    · rw [sub_left (by omega), ih (by omega)]

theorem different_length : different.length = 2048 := by unfold different; rw [flat_length word (fun _ => rfl)]

theorem different_at {k : Nat} (hk : k < 1024) : (different.drop (2 * k)).take 2 = word k := by unfold different; exact flat_at word (fun _ => rfl) hk

/-- Equal parts at even offsets are at the same offset. -/
theorem different_eq {a b n : Nat} (hn : 2 ≤ n) (ha : a < 1024) (hb : b < 1024)
    (h : (different.drop (2 * a)).take n = (different.drop (2 * b)).take n) : a = b := by
  have := congrArg (List.take 2) h
  rw [List.take_take, List.take_take, Nat.min_eq_left hn, different_at ha, different_at hb] at this
  exact word_inj ha hb this

theorem different_seen {pos n o c : Nat} (hn : n = 2 * c) (hc : 0 < c) (h1 : pos ≤ 2 * o) (h2 : o < 1024) : seen different pos n (2 * o) = false := by
  rw [Bool.eq_false_iff]
  intro h
  unfold seen at h
  rw [List.any_eq_true] at h
  obtain ⟨k, hk, hd⟩ := h
  rw [List.mem_range] at hk
  rw [decide_eq_true_iff] at hd
  have hk1 : n * (k + 1) ≤ pos := by
    have := (Nat.le_div_iff_mul_le (by omega)).1 (show k + 1 ≤ pos / n from hk)
    rw [Nat.mul_comm]; exact this
  have hk2 : n * k = 2 * (c * k) := by rw [hn, Nat.mul_assoc]
  rw [Nat.mul_add] at hk1
  rw [hk2] at hd
  have := different_eq (by omega) (by omega) h2 hd.2
  omega

theorem different_group {i l : Nat} (hi : i < 256) (hl : l < 256) (h : group different i = group different l) : i = l := by
  unfold group at h
  rw [show 8 * i = 2 * (4 * i) by omega, show 8 * l = 2 * (4 * l) by omega] at h
  have := different_eq (by omega) (by omega) (by omega) h
  omega

theorem different_zero {i : Nat} (hi : i < 256) : zeroGroup different i = false := by
  unfold zeroGroup
  rw [decide_eq_false_iff_not]
  intro h
  have := congrArg (List.take 2) h
  rw [List.take_take, show 8 * i = 2 * (4 * i) by omega, show min 2 8 = 2 from rfl, different_at (by omega)] at this
  exact word_ne (by omega) this

theorem different_reps {i : Nat} (hi : i < 256) : reps different i = 0 := by
  cases i with
  | zero => rfl
  | succ i =>
    rw [reps, if_neg]
    intro h
    have := different_group hi (by omega) h
    omega

theorem different_cost {i : Nat} (hi : i < 256) : cost different i = 69 := by
  have hs : ∀ c n o, n = 2 * c → 0 < c → o < 8 → o % 2 = 0 → seen different (8 * i) n (8 * i + o) = false := by
    intro c n o hn hc ho h2
    rw [show 8 * i + o = 2 * (4 * i + o / 2) by omega]
    exact different_seen hn hc (by omega) (by omega)
  unfold cost groupBits halfBits wordBits
  rw [if_pos (different_reps hi), different_zero hi]
  rw [show seen different (8 * i) 8 (8 * i) = false from hs 4 8 0 rfl (by omega) (by omega) rfl,
    show seen different (8 * i) 4 (8 * i) = false from hs 2 4 0 rfl (by omega) (by omega) rfl,
    show seen different (8 * i) 2 (8 * i) = false from hs 1 2 0 rfl (by omega) (by omega) rfl,
    hs 1 2 2 rfl (by omega) (by omega) rfl, hs 2 4 4 rfl (by omega) (by omega) rfl, hs 1 2 4 rfl (by omega) (by omega) rfl,
    show seen different (8 * i) 2 (8 * i + 4 + 2) = false from hs 1 2 6 rfl (by omega) (by omega) rfl]
  rfl

theorem twice_cost {i : Nat} (hi : i < 256) : cost (different ++ different) (256 + i) = 13 := by
  have hl := different_length
  have hr0 : reps (different ++ different) 256 = 0 := by
    rw [show (256 : Nat) = 255 + 1 from rfl, reps, if_neg]
    intro h
    rw [show (255 : Nat) + 1 = 256 + 0 from rfl, group_right (by omega), group_left (by omega)] at h
    have := different_group (by omega) (by omega) h
    omega
  have hr : reps (different ++ different) (256 + i) = 0 := by
    rw [reps_right (by omega), different_reps hi, hr0]
    split <;> omega
  have hs : seen (different ++ different) (8 * (256 + i)) 8 (8 * (256 + i)) = true := by
    unfold seen
    rw [List.any_eq_true]
    refine ⟨i, ?_, ?_⟩
    · rw [List.mem_range]; omega
    · rw [decide_eq_true_iff]
      refine ⟨by rw [show ringSize 8 = 2048 from rfl]; omega, ?_⟩
      rw [sub_left (by omega), show 8 * (256 + i) = different.length + 8 * i by omega, sub_right]
  unfold cost groupBits
  rw [if_pos hr, zero_right (by omega), different_zero hi, hs]
  rfl

theorem psum_const {f : Nat → Nat} {c n : Nat} (h : ∀ i < n, f i = c) : psum f n = c * n := by
  induction n with
  | zero => rfl
  | succ n ih => rw [psum, ih fun i hi => h i (by omega), h n (by omega), Nat.mul_add]; omega

theorem once_sum {p : List Byte} {a : Nat} (ha : p.length = 8 * a) (h1 : ∀ i < a, cost p i = 69) : sizeBits p = 69 * a + 37 := by
  rw [sizeBits_eq, show p.length / 8 = a by omega, psum_const h1]
  unfold tail
  rw [if_pos (by omega)]

theorem twice_sum {p : List Byte} {a : Nat} (ha : p.length = 8 * a) (h1 : ∀ i < a, cost p i = 69)
    (h2 : ∀ i < a, cost (p ++ p) (a + i) = 13) : sizeBits (p ++ p) = 82 * a + 37 := by
  rw [sizeBits_eq, show (p ++ p).length / 8 = a + a by rw [List.length_append]; omega, psum_add,
    psum_congr (g := cost p) (n := a) fun i hi => cost_left (by omega), psum_const h1, psum_const h2]
  unfold tail
  rw [List.length_append, if_pos (by omega)]
  omega

theorem different_size : sizeBits different = 17701 :=
  (once_sum (a := 256) different_length fun _ hi => different_cost hi)

theorem twice_size : sizeBits (different ++ different) = 21029 :=
  (twice_sum (a := 256) different_length (fun _ hi => different_cost hi) fun _ hi => twice_cost hi)

end Lib842.Chunks
