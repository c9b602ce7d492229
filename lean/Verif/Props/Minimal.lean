import Verif.Proofs.Expansion
import Verif.Proofs.Minimal
import Verif.Props.Sw
import Verif.Props.Opt
/-!
# C70: how close `sw842_compress` comes to the shortest stream

Competitors are all streams of the hardware format (`Spec.HwDecodes`), whatever produced them.
-/

namespace Lib842.Props
open Spec

/-- C70: for data of a multiple of 8 bytes, the ops of `sw842_compress` take exactly `zeroWaste x` bits more than the
shortest op sequence that expands to the data. Partial: the full claim is that no sequence is shorter, see
`C70_shortest_false`. -/
theorem C70_shortest_partial (e : Endian) (addr : Nat) (j : CompJunk) (x buf : List Byte) (n : Nat) (b : List Byte)
    (hx : x.length % 8 = 0) (h : sw842Compress e addr j x buf = .ret none n b) :
    ∃ ops R, Expands ops x ∧ bytesBits (b.take n) = ops.flatMap Op.bits ++ trailer x ++ R ∧
      (∀ ops', Expands ops' x → (∀ op ∈ ops', op.isShort = false) →
        (ops.flatMap Op.bits).length ≤ (ops'.flatMap Op.bits).length + zeroWaste x) ∧
      ∃ ops', Expands ops' x ∧ (∀ op ∈ ops', op.isShort = false) ∧
        (ops.flatMap Op.bits).length = (ops'.flatMap Op.bits).length + zeroWaste x :=
  ⟨refOps x, _, refOps_expands x, (sw842Compress_ok h).2.2.2.2, refOps_min hx⟩

theorem hw_bits {s x : List Byte} (h : HwDecodes s x) : psum (minCost x) (x.length / 8) + 37 ≤ 8 * s.length := by
  obtain ⟨ops, rest, h1, h2, h3⟩ := h
  have hm := expands_min h1 h2
  have hl := congrArg List.length h3
  rw [length_bytesBits, List.length_append, List.length_append] at hl
  have ht : (trailer x).length = 37 := by simp [trailer]
  omega

/-- C70, size of the output: it is shortest up to the bits of `zeroWaste` and the padding to a multiple of 8 bytes. -/
theorem C70_size (e : Endian) (addr : Nat) (j : CompJunk) (x buf : List Byte) (n : Nat) (b : List Byte) (s : List Byte)
    (hx : x.length % 8 = 0) (h : sw842Compress e addr j x buf = .ret none n b) (hs : HwDecodes s x) :
    n ≤ 8 * ((8 * s.length + zeroWaste x + 63) / 64) := by
  have h1 := (sw842Compress_ok h).1
  have h2 := refOps_cost hx
  have h3 := sw_waste x
  have h4 := hw_bits hs
  have ht : (streamBits x).length = ((refOps x).flatMap Op.bits).length + 37 := by
    unfold streamBits; rw [List.length_append]; simp [trailer]
  unfold paddedSize at h1
  omega

/-- C70: without a run of zero groups in which the last repeat op stands for one or two groups, no stream whose length is
a multiple of 8 is shorter. -/
theorem C70_size_no_waste (e : Endian) (addr : Nat) (j : CompJunk) (x buf : List Byte) (n : Nat) (b : List Byte)
    (s : List Byte) (hx : x.length % 8 = 0) (hw : zeroWaste x = 0) (h : sw842Compress e addr j x buf = .ret none n b)
    (hs : HwDecodes s x) (hs8 : s.length % 8 = 0) : n ≤ s.length := by
  have := C70_size e addr j x buf n b s hx h hs
  omega

/-- C70: the output is never more than about 29/23 of the shortest stream. -/
theorem C70_ratio (e : Endian) (addr : Nat) (j : CompJunk) (x buf : List Byte) (n : Nat) (b : List Byte)
    (s : List Byte) (hx : x.length % 8 = 0) (h : sw842Compress e addr j x buf = .ret none n b) (hs : HwDecodes s x) :
    23 * n ≤ 29 * s.length + 163 := by
  have h1 := (sw842Compress_ok h).1
  have h2 := refOps_cost hx
  have h3 := sw_waste x
  have h4 := hw_bits hs
  have h5 := zeroWaste_ratio x
  have ht : (streamBits x).length = ((refOps x).flatMap Op.bits).length + 37 := by
    unfold streamBits; rw [List.length_append]; simp [trailer]
  unfold paddedSize at h1
  omega

/-- `k` times two zero groups and a group that is not zero -/
def zeroPairs : Nat → List Byte
  | 0 => []
  | k + 1 => zeroPairs k ++ (List.replicate 16 0 ++ [1, 2, 3, 4, 5, 6, 7, 8])

theorem length_zeroPairs (k : Nat) : (zeroPairs k).length = 24 * k := by
  induction k with
  | zero => rfl
  | succ k ih => simp [zeroPairs, ih]; omega

theorem zeroPairs_group {k i : Nat} (h : i < k) :
    group (zeroPairs k) (3 * i) = List.replicate 8 0 ∧ group (zeroPairs k) (3 * i + 1) = List.replicate 8 0 ∧
      group (zeroPairs k) (3 * i + 2) = [1, 2, 3, 4, 5, 6, 7, 8] := by
  induction k with
  | zero => omega
  | succ k ih =>
    have hl := length_zeroPairs k
    by_cases hi : i < k
    · have key : ∀ g, g < 3 * k → group (zeroPairs (k + 1)) g = group (zeroPairs k) g := by
        intro g hg
        unfold group
        rw [zeroPairs, List.drop_append_of_le_length (by omega), List.take_append_of_le_length (by rw [List.length_drop]; omega)]
      rw [key _ (by omega), key _ (by omega), key _ (by omega)]
      exact ih hi
    · obtain rfl : i = k := by omega
      have key : ∀ r, group (zeroPairs (i + 1)) (3 * i + r) =
          ((List.replicate 16 0 ++ [1, 2, 3, 4, 5, 6, 7, 8] : List Byte).drop (8 * r)).take 8 := by
        intro r
        unfold group
        rw [zeroPairs, List.drop_append, List.drop_of_length_le (by omega), List.nil_append]
        congr 2
        omega
      exact ⟨key 0, key 1, key 2⟩

theorem zeroPairs_waste (k : Nat) : zeroWaste (zeroPairs k) = 6 * k := by
  have hw : zeroWaste (zeroPairs k) = psum (endWaste (zeroPairs k)) ((zeroPairs k).length / 8) := psum_list _ _
  rw [hw, length_zeroPairs, show 24 * k / 8 = 3 * k by omega]
  suffices ∀ m ≤ k, psum (endWaste (zeroPairs k)) (3 * m) = 6 * m from this k (Nat.le_refl _)
  intro m hm
  induction m with
  | zero => rfl
  | succ m ih =>
    obtain ⟨g0, g1, g2⟩ := zeroPairs_group (k := k) (i := m) (by omega)
    have z0 : zeroGroup (zeroPairs k) (3 * m) = true := (zeroGroup_iff _ _).2 g0
    have z1 : zeroGroup (zeroPairs k) (3 * m + 1) = true := (zeroGroup_iff _ _).2 g1
    have z2 : zeroGroup (zeroPairs k) (3 * m + 2) = false := by
      rw [Bool.eq_false_iff, Ne, zeroGroup_iff, g2]; decide
    have r0 : reps (zeroPairs k) (3 * m) = 0 := by
      cases m with
      | zero => rfl
      | succ m =>
        obtain ⟨_, _, g⟩ := zeroPairs_group (k := k) (i := m) (by omega)
        have : group (zeroPairs k) (3 * m + 2 + 1) = List.replicate 8 0 := g0
        show reps (zeroPairs k) (3 * m + 2 + 1) = 0
        rw [reps, this, g]
        rfl
    have r1 : reps (zeroPairs k) (3 * m + 1) = 1 := by
      rw [reps, if_pos (g1.trans g0.symm), r0]
    show psum (endWaste (zeroPairs k)) (3 * m + 2 + 1) = _
    rw [psum, psum, psum, ih (by omega)]
    unfold endWaste
    rw [z0, z1, z2, r1]
    simp [runWaste]
    omega

/-- An op sequence for it that codes every zero group on its own -/
def zeroPairsOps : Nat → List Op
  | 0 => []
  | 1 => [.zeros, .zeros, .template 0 [.data [1, 2, 3, 4, 5, 6, 7, 8]]]
  | k + 2 => zeroPairsOps (k + 1) ++ [.zeros, .zeros, .template 0x19 [.index 8 ((3 * k + 2) % 256)]]

theorem zeroPairsOps_expands (k : Nat) : Expands (zeroPairsOps k) (zeroPairs k) ∧ (∀ op ∈ zeroPairsOps k, op.isShort = false) ∧
    ((zeroPairsOps k).flatMap Op.bits).length ≤ 23 * k + 56 := by
  suffices ∀ k, Expands (zeroPairsOps (k + 1)) (zeroPairs (k + 1)) ∧ (∀ op ∈ zeroPairsOps (k + 1), op.isShort = false) ∧
      ((zeroPairsOps (k + 1)).flatMap Op.bits).length ≤ 23 * (k + 1) + 56 by
    cases k with
    | zero => exact ⟨⟨fun _ h => (List.not_mem_nil h).elim, .nil⟩, fun _ h => (List.not_mem_nil h).elim, Nat.zero_le _⟩
    | succ k => exact this k
  intro k
  induction k with
  | zero =>
    refine ⟨⟨?_, ?_⟩, by decide, by decide⟩
    · intro op ho
      simp only [zeroPairsOps, List.mem_cons, List.not_mem_nil, or_false] at ho
      rcases ho with rfl | rfl | rfl
      · trivial
      · trivial
      · exact ⟨rfl, fun a ha => by rw [List.mem_singleton.1 ha]; trivial⟩
    · exact .cons .zeros (.cons .zeros (.cons (.template (.cons .data .nil)) .nil))
  | succ k ih =>
    obtain ⟨⟨v, r⟩, s, l⟩ := ih
    have hl := length_zeroPairs (k + 1)
    have hg := (zeroPairs_group (k := k + 1) (i := k) (by omega)).2.2
    refine ⟨⟨?_, ?_⟩, ?_, ?_⟩
    · intro op ho
      rw [zeroPairsOps, List.mem_append] at ho
      rcases ho with ho | ho
      · exact v op ho
      · simp only [List.mem_cons, List.not_mem_nil, or_false] at ho
        rcases ho with rfl | rfl | rfl
        · trivial
        · trivial
        · exact ⟨rfl, fun a ha => by
            rw [List.mem_singleton.1 ha]
            show (3 * k + 2) % 256 < 2 ^ 8
            omega⟩
    · refine Lib842.Run.append r (.cons .zeros (.cons .zeros (.cons (.template (.cons (.index (o := 24 * k + 16) ?_) .nil)) ?_)))
      · simp only [List.length_append, List.length_replicate, hl, RingRef, ringSize, indexBits]
        simp
        omega
      · have e : ((zeroPairs (k + 1) ++ List.replicate 8 0#8 ++ List.replicate 8 0#8).drop (24 * k + 16)).take 8 = [1, 2, 3, 4, 5, 6, 7, 8] := by
          rw [List.append_assoc, List.drop_append_of_le_length (by omega), List.take_append_of_le_length (by rw [List.length_drop]; omega)]
          unfold group at hg
          rwa [show 8 * (3 * k + 2) = 24 * k + 16 by omega] at hg
        rw [e]
        have : zeroPairs (k + 1 + 1) = zeroPairs (k + 1) ++ List.replicate 8 0#8 ++ List.replicate 8 0#8 ++ [1, 2, 3, 4, 5, 6, 7, 8] := by
          rw [zeroPairs, List.append_assoc, List.append_assoc]
          rfl
        rw [this]
        exact .nil
    · intro op ho
      rw [zeroPairsOps, List.mem_append] at ho
      rcases ho with ho | ho
      · exact s op ho
      · simp only [List.mem_cons, List.not_mem_nil, or_false] at ho
        rcases ho with rfl | rfl | rfl <;> rfl
    · rw [zeroPairsOps, List.flatMap_append, List.length_append]
      have : (([.zeros, .zeros, .template 0x19 [.index 8 ((3 * k + 2) % 256)]] : List Op).flatMap Op.bits).length = 23 := by
        simp [Op.bits, Arg.bits, indexBits]
      omega

/-- C70: the factor 29/23 is reached, up to a constant, by data of every size: two zero groups and another one, `k` times. -/
theorem C70_ratio_tight (e : Endian) (addr : Nat) (j : CompJunk) (k : Nat) (buf : List Byte) (hbuf : 26 * k + 16 ≤ buf.length) (hk : 26 * k + 16 ≤ 0xffffffff) :
    ∃ x n b s, x.length = 24 * k ∧ sw842Compress e addr j x buf = .ret none n b ∧ HwDecodes s x ∧ s.length % 8 = 0 ∧
      29 * s.length ≤ 23 * n + 298 ∧ 3 * k ≤ 4 * n := by
  have hl := length_zeroPairs k
  have h8 : (zeroPairs k).length % 8 = 0 := by omega
  have hcap : 8 * ((69 * ((zeroPairs k).length / 8) + (if (zeroPairs k).length % 8 = 0 then 0 else 8 + 8 * ((zeroPairs k).length % 8)) + 37 + 63) / 64) ≤
      26 * k + 16 := by
    rw [if_pos h8, hl]; omega
  obtain ⟨n, b, h, _⟩ := C12_sw_worst_case e addr j (zeroPairs k) buf (Nat.le_trans hcap hbuf) (Nat.le_trans hcap hk)
  have h1 := (sw842Compress_ok h).1
  have h2 := refOps_cost h8
  have h3 := sw_waste (zeroPairs k)
  rw [zeroPairs_waste] at h3
  obtain ⟨x1, x2, x3⟩ := zeroPairsOps_expands k
  have h4 := expands_min x1 x2
  obtain ⟨ops, o1, o2, o3⟩ := min_attained (zeroPairs k) ((zeroPairs k).length / 8) (by omega)
  rw [List.take_of_length_le (by omega)] at o1
  have ht : (streamBits (zeroPairs k)).length = ((refOps (zeroPairs k)).flatMap Op.bits).length + 37 := by
    unfold streamBits; rw [List.length_append]; simp [trailer]
  have hT : (trailer (zeroPairs k)).length = 37 := by simp [trailer]
  generalize psum (minCost (zeroPairs k)) ((zeroPairs k).length / 8) = mc at *
  obtain ⟨s, s1, s2⟩ := exists_bytes (8 * ((mc + 37 + 63) / 64))
    (ops.flatMap Op.bits ++ trailer (zeroPairs k) ++ List.replicate (64 * ((mc + 37 + 63) / 64) - (mc + 37)) false)
    (by rw [List.length_append, List.length_append, List.length_replicate, hT, o3]; omega)
  refine ⟨zeroPairs k, n, b, s, hl, h, ⟨ops, _, o1, o2, s1⟩, by omega, ?_, ?_⟩
  · unfold paddedSize at h1
    omega
  · unfold paddedSize at h1
    omega
/-- Four times two zero groups and a group that is not zero -/
def exZeroRuns : List Byte := (List.replicate 4 (List.replicate 16 0 ++ [1, 2, 3, 4, 5, 6, 7, 8])).flatten

/-- A stream for it that codes every zero group with a zeros op -/
def exShorter : List Byte :=
  [231, 0, 2, 4, 6, 8, 10, 12, 14, 17, 206, 100, 11, 156, 200, 23, 57, 144, 47, 60, 242, 162, 120, 128]

theorem exShorter_decodes : HwDecodes exShorter exZeroRuns := by
  have h : (match optsw842Decompress .little 0 0 exShorter (List.replicate 96 0) with
      | .ret none n b => some (n, b.take n)
      | _ => none) = some (96, exZeroRuns) := by decide +kernel
  split at h
  · rename_i n b hr
    have := (C14_opt_success_is_decoding .little 0 0 exShorter (List.replicate 96 0) n b ⟨rfl, rfl⟩ hr).1
    have h2 := congrArg Prod.snd (Option.some.inj h)
    simp only at h2
    rw [h2] at this
    exact this
  · cases h

/-- C70: the output is not always shortest: 32 bytes where 24 suffice. -/
theorem C70_shortest_false : ¬ ∀ (e : Endian) (addr : Nat) (j : CompJunk) (x buf : List Byte) (n : Nat) (b s : List Byte),
    x.length % 8 = 0 → sw842Compress e addr j x buf = .ret none n b → HwDecodes s x → s.length % 8 = 0 → n ≤ s.length := by
  intro hall
  have h : (view (sw842Compress .little 0 junk0 exZeroRuns (List.replicate 40 0))).map (fun r => (r.1, r.2.1)) =
      some (none, 32) := by decide +kernel
  rcases hr : sw842Compress .little 0 junk0 exZeroRuns (List.replicate 40 0) with ⟨rc, n, b⟩ | _ | _
  · rw [hr] at h
    simp only [view, Option.map_some, Option.some.injEq, Prod.mk.injEq] at h
    obtain ⟨rfl, rfl⟩ := h
    have := hall .little 0 junk0 exZeroRuns _ 32 b exShorter (by decide) hr exShorter_decodes (by decide)
    exact absurd this (by decide)
  · rw [hr] at h; cases h
  · rw [hr] at h; cases h

/-- In the example each of the four runs costs 6 bits; a run of four zero groups costs nothing, nor does one of 64 or 65;
runs of 2, 3, 66 and 67 groups cost something. -/
example : zeroWaste exZeroRuns = 24 ∧
    [1, 2, 3, 4, 5, 64, 65, 66, 67, 68].filter (fun k => zeroWaste (List.replicate (8 * k) 0) ≠ 0) = [2, 3, 66, 67] := by
  decide +kernel

/-- Data without waste: a run of four zero groups, a literal, its repetition, a single zero group -/
def exNoWaste : List Byte :=
  List.replicate 32 0 ++ [1, 2, 3, 4, 5, 6, 7, 8, 1, 2, 3, 4, 5, 6, 7, 8] ++ List.replicate 8 0

example : zeroWaste exNoWaste = 0 ∧ exNoWaste.length % 8 = 0 ∧
    (view (sw842Compress .little 0 junk0 exNoWaste (List.replicate 40 0))).map (fun r => (r.1, r.2.1)) = some (none, 24) := by
  decide +kernel

end Lib842.Props
