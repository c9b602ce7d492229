import Verif.Proofs.SwHeapPeak
import Verif.Props.SwHeap
import Verif.Props.NewWords
/-!
# C87: how much memory the serial compressor needs
-/

namespace Lib842.Props
open Spec SwHeap

/-- C87: room for `peakBlocks x` blocks is enough, whatever the output buffer; the result is that of the model without
memory management, and all memory is given back. -/
theorem C87_enough (e : Endian) (addr : Nat) (j : CompJunk) (x buf : List Byte) (hp : Heap)
    (hn : hp.live.Nodup) (hf : ∀ c ∈ hp.live, c < hp.next) (hl : hp.live.length + peakBlocks x ≤ hp.limit) :
    ∃ hp', sw842CompressH e addr j x buf hp = some (sw842Compress e addr j x buf, hp') ∧ hp'.live.Perm hp.live := by
  have h := (sw842CompressH_peak e addr j x buf hp hn hf).1 hl
  have hb : sw842Compress e addr j x buf ≠ .ub ∧ sw842Compress e addr j x buf ≠ .timeout := by
    obtain ⟨b, -, hr⟩ := sw842Compress_eq e addr j x buf
    split at hr
    · rw [hr.1]; exact ⟨Call.noConfusion, Call.noConfusion⟩
    · rw [hr]; exact ⟨Call.noConfusion, Call.noConfusion⟩
  unfold sw842Compress sw842CompressF at hb ⊢
  cases hr : compBody e addr (x.length / 8 + 1) x buf.length (compInit j x buf) with
  | ok n p => rw [hr] at h; exact h
  | err er p => rw [hr] at h; exact h
  | ub => rw [hr] at hb; exact absurd rfl hb.1
  | timeout => rw [hr] at hb; exact absurd rfl hb.2

/-- C87: with less memory, a call that would succeed dereferences a null pointer. -/
theorem C87_needed (e : Endian) (addr : Nat) (j : CompJunk) (x buf : List Byte) (hp : Heap) (n : Nat) (b : List Byte)
    (hn : hp.live.Nodup) (hf : ∀ c ∈ hp.live, c < hp.next) (hs : sw842Compress e addr j x buf = .ret none n b)
    (hl : hp.limit < hp.live.length + peakBlocks x) : sw842CompressH e addr j x buf hp = none := by
  unfold sw842Compress sw842CompressF at hs
  cases hr : compBody e addr (x.length / 8 + 1) x buf.length (compInit j x buf) with
  | ok n p => exact (sw842CompressH_peak e addr j x buf hp hn hf).2 n p hr (by omega)
  | err er p => rw [hr] at hs; cases hs
  | ub => rw [hr] at hs; cases hs
  | timeout => rw [hr] at hs; cases hs

/-- C87: exactly `peakBlocks x` blocks are needed. -/
theorem C87_exact (e : Endian) (addr : Nat) (j : CompJunk) (x buf : List Byte) (hp : Heap) (n : Nat) (b : List Byte)
    (hn : hp.live.Nodup) (hf : ∀ c ∈ hp.live, c < hp.next) (hs : sw842Compress e addr j x buf = .ret none n b) :
    (sw842CompressH e addr j x buf hp).isSome ↔ hp.live.length + peakBlocks x ≤ hp.limit := by
  constructor
  · intro h
    by_contra hl
    rw [C87_needed e addr j x buf hp n b hn hf hs (by omega)] at h
    cases h
  · intro h
    obtain ⟨hp', h1, -⟩ := C87_enough e addr j x buf hp hn hf h
    rw [h1]
    rfl

theorem dictBlocks_le (n N : Nat) (x : List Byte) (k : Nat) : dictBlocks n N x k ≤ 2 * min N k := by
  have h1 : (dictPieces n N x k).length = min N k := by
    unfold dictPieces
    rw [List.length_map, List.length_drop, List.length_range]
    omega
  have h2 := (List.dedup_sublist (dictPieces n N x k)).length_le
  unfold dictBlocks
  omega

theorem foldr_max_le {ts : List Nat} {b : Nat} (h1 : 1 ≤ b) (h : ∀ t ∈ ts, t ≤ b) : ts.foldr max 1 ≤ b := by
  induction ts with
  | nil => exact h1
  | cons t ts ih =>
    have := h t List.mem_cons_self
    have := ih fun t' ht' => h t' (List.mem_cons_of_mem _ ht')
    rw [List.foldr_cons]
    omega

theorem le_foldr_max {ts : List Nat} {t : Nat} (h : t ∈ ts) : t ≤ ts.foldr max 1 := by
  induction ts with
  | nil => cases h
  | cons t' ts ih =>
    rw [List.foldr_cons]
    rcases List.mem_cons.1 h with rfl | h
    · omega
    · have := ih h
      omega

/-- C87: never more than 2049 blocks, and not more than 1 + 14 for every 8 bytes. -/
theorem C87_bound (x : List Byte) : peakBlocks x ≤ 2049 ∧ peakBlocks x ≤ 1 + 14 * (x.length / 8) := by
  unfold peakBlocks
  constructor
  · apply foldr_max_le (by omega)
    intro t ht
    obtain ⟨s, -, rfl⟩ := List.mem_map.1 ht
    have h1 := dictBlocks_le 8 256 x s.1
    have h2 := dictBlocks_le 4 512 x s.2.1
    have h3 := dictBlocks_le 2 256 x s.2.2
    unfold compBlocks
    omega
  · apply foldr_max_le (by omega)
    intro t ht
    obtain ⟨s, hs, rfl⟩ := List.mem_map.1 ht
    obtain ⟨g, hg, hs⟩ := List.mem_flatMap.1 hs
    have hg := List.mem_range.1 hg
    have h1 := dictBlocks_le 8 256 x s.1
    have h2 := dictBlocks_le 4 512 x s.2.1
    have h3 := dictBlocks_le 2 256 x s.2.2
    have : s.1 ≤ g + 1 ∧ s.2.1 ≤ 2 * g + 2 ∧ s.2.2 ≤ 4 * g + 4 := by
      simp only [insertions, List.mem_cons, List.not_mem_nil, or_false] at hs
      rcases hs with rfl | rfl | rfl | rfl | rfl | rfl | rfl <;> dsimp only <;> omega
    unfold compBlocks
    omega

theorem dictBlocks_distinct {n N : Nat} {x : List Byte} {k : Nat} (hn : n = 2 ∨ n = 4 ∨ n = 8) (hk : n * k ≤ 2048)
    (hd : ∀ i < 1024, ∀ j < 1024, wordOf x i = wordOf x j → i = j) :
    dictBlocks n N x k = 2 * min N k := by
  have h1 : (dictPieces n N x k).length = min N k := by
    unfold dictPieces
    rw [List.length_map, List.length_drop, List.length_range]
    omega
  have h2 : (dictPieces n N x k).Nodup := by
    unfold dictPieces
    refine List.Nodup.map_on ?_ ((List.nodup_range).sublist (List.drop_sublist _ _))
    intro i hi j hj hij
    have hi := List.mem_range.1 (List.mem_of_mem_drop hi)
    have hj := List.mem_range.1 (List.mem_of_mem_drop hj)
    have hw : ∀ i, ((x.drop (n * i)).take n).take 2 = wordOf x (n / 2 * i) := by
      intro i
      unfold wordOf
      rw [List.take_take]
      rcases hn with rfl | rfl | rfl
      · rw [show 2 * (2 / 2 * i) = 2 * i by omega]; rfl
      · rw [show 2 * (4 / 2 * i) = 4 * i by omega]; rfl
      · rw [show 2 * (8 / 2 * i) = 8 * i by omega]; rfl
    have h3 := hd (n / 2 * i) (by rcases hn with rfl | rfl | rfl <;> omega) (n / 2 * j)
      (by rcases hn with rfl | rfl | rfl <;> omega) (by rw [← hw, ← hw, hij])
    rcases hn with rfl | rfl | rfl <;> omega
  unfold dictBlocks
  rw [h2.dedup, h1]
  omega

/-- C87: 2049 blocks are needed if the first 1024 words are all different. -/
theorem C87_tight (x : List Byte) (hx : 2048 ≤ x.length)
    (hd : ∀ i < 1024, ∀ j < 1024, wordOf x i = wordOf x j → i = j) : peakBlocks x = 2049 := by
  apply Nat.le_antisymm (C87_bound x).1
  have hm : compBlocks x (256, 512, 1024) ∈ ((List.range (x.length / 8)).flatMap insertions).map (compBlocks x) := by
    refine List.mem_map_of_mem (List.mem_flatMap.2 ⟨255, List.mem_range.2 (by omega), ?_⟩)
    simp [insertions]
  have h := le_foldr_max hm
  unfold peakBlocks
  refine Nat.le_trans ?_ h
  unfold compBlocks
  dsimp only
  rw [dictBlocks_distinct (.inr (.inr rfl)) (by omega) hd, dictBlocks_distinct (.inr (.inl rfl)) (by omega) hd,
    dictBlocks_distinct (.inl rfl) (by omega) hd]
  decide

/-- The 16-bit numbers 0, 1, 2, …, 1023 are such an input. -/
theorem C87_counting : (counting 256).length = 2048 ∧
    ∀ i < 1024, ∀ j < 1024, wordOf (counting 256) i = wordOf (counting 256) j → i = j := by
  refine ⟨length_counting 256, fun i hi j hj h => ?_⟩
  rcases Nat.lt_trichotomy i j with hl | hl | hl
  · exact absurd h (counting_inj (by omega) hl (by omega))
  · exact hl
  · exact absurd h.symm (counting_inj (by omega) hl (by omega))

/-- C87: hence 2049 blocks are necessary for `counting 256`; 2048 are not enough. -/
theorem C87_counting_needed (e : Endian) (addr : Nat) (j : CompJunk) (buf : List Byte) (hp : Heap) (n : Nat) (b : List Byte)
    (hn : hp.live.Nodup) (hf : ∀ c ∈ hp.live, c < hp.next) (hs : sw842Compress e addr j (counting 256) buf = .ret none n b)
    (hl : hp.limit = hp.live.length + 2048) : sw842CompressH e addr j (counting 256) buf hp = none := by
  refine C87_needed e addr j _ buf hp n b hn hf hs ?_
  rw [C87_tight _ (Nat.le_of_eq C87_counting.1.symm) C87_counting.2]
  omega

/-- Two groups that have a piece of 4 bytes in common, then the first group again: 32 blocks. -/
def exPeak : List Byte := [1, 2, 3, 4, 5, 6, 7, 8] ++ [9, 9, 9, 9, 1, 2, 3, 4] ++ [1, 2, 3, 4, 5, 6, 7, 8]

/-- The hypotheses are met; one block less than `peakBlocks` is too little. -/
example : peakBlocks exPeak = 32 ∧
    (match sw842Compress .little 0 junk0 exPeak (List.replicate 64 0) with | .ret er n _ => (er, n) | _ => (none, 0)) = (none, 24) ∧
    ((sw842CompressH .little 0 junk0 exPeak (List.replicate 64 0) ⟨7, [3, 5], 34⟩).map fun r => r.2.live) = some [3, 5] ∧
    sw842CompressH .little 0 junk0 exPeak (List.replicate 64 0) ⟨7, [3, 5], 33⟩ = none := by
  and_intros <;> decide +kernel

end Lib842.Props
