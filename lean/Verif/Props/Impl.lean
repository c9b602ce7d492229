import Verif.Model.Impl
import Verif.Props.Chunked
/-!
# C113: chunked round trip with any two implementations
-/

namespace Lib842.Props
open Spec

/-- What a function of the operating system (or any other implementation) has to do: a call leaves the size of the output alone, success of the compressor means that the result
fits and that the decompressor restores the data, wherever the buffers are. -/
structure ImplPair (A B : ImplTable) (P : List Byte → Prop) : Prop where
  comp_size : ∀ ain aout, KeepsSize (A.compress ain aout)
  decomp_size : ∀ ain aout, KeepsSize (B.decompress ain aout)
  fits : ∀ ain aout so d x buf n b, A.compress ain aout so d x buf = .ret none n b → n ≤ buf.length
  restores : ∀ ain aout so d x buf n b, P x → A.compress ain aout so d x buf = .ret none n b →
    ∀ ain' aout' so' d' buf', x.length ≤ buf'.length →
      ∃ b', B.decompress ain' aout' so' d' (b.take n) buf' = .ret none x.length b' ∧ b'.take x.length = x

/-- The chunked function of the implementation is the single-chunk function in succession. -/
def ImplChunked (T : ImplTable) : Prop :=
  (∀ ain aout n is os inp il, T.compressChunked ain aout n is os inp il = chunked (T.compress ain aout) n is os inp il) ∧
  (∀ ain aout n is os inp il, T.decompressChunked ain aout n is os inp il = chunked (T.decompress ain aout) n is os inp il)

theorem stride_disjoint {i i' s ol : Nat} (h : i < i') (ho : ol ≤ s) : i * s + ol ≤ i' * s := by
  have h1 : (i + 1) * s ≤ i' * s := Nat.mul_le_mul_right _ h
  rw [Nat.add_mul] at h1
  omega

/-- C113: several chunks are compressed with the chunked function of one implementation, and the result goes to the chunked function of the other: all chunks are restored. -/
theorem C113_chunked_round_trip (A B : ImplTable) (P : List Byte → Prop) (hA : ImplChunked A) (hB : ImplChunked B) (hp : ImplPair A B P)
    (ain aout bin bout numchunks istride ostride dstride : Nat) (inp : List Byte) (ilens : List Nat) (s s1 t : ChState) (rc : Option Errno)
    (hn : numchunks < 2 ^ 32) (hi : (numchunks - 1) * istride < 2 ^ 32) (ho : (numchunks - 1) * ostride < 2 ^ 32) (hd : (numchunks - 1) * dstride < 2 ^ 32)
    (hr : numchunks ≤ s.rets.length) (hr' : numchunks ≤ t.rets.length)
    (hch : ∀ i < numchunks, ∃ il ol dl, ilens[i]? = some il ∧ il ≠ 2 ^ 64 - 1 ∧ P ((inp.drop (i * istride)).take il) ∧ i * istride + il ≤ inp.length ∧
      s.olens[i]? = some ol ∧ ol ≤ ostride ∧ ol < 2 ^ 64 - 1 ∧ i * ostride + ol ≤ s.out.length ∧
      t.olens[i]? = some dl ∧ il ≤ dl ∧ dl ≤ dstride ∧ i * dstride + dl ≤ t.out.length)
    (h : A.compressChunked ain aout numchunks istride ostride inp ilens s = .ok rc s1)
    (hok : ∀ i < numchunks, s1.rets[i]? = some none) :
    ∃ t1, B.decompressChunked bin bout numchunks ostride dstride s1.out s1.olens t = .ok none t1 ∧ t1.out.length = t.out.length ∧
      ∀ i < numchunks, ∀ il, ilens[i]? = some il → t1.rets[i]? = some none ∧ t1.olens[i]? = some il ∧
        (t1.out.drop (i * dstride)).take il = (inp.drop (i * istride)).take il := by
  rw [hA.1, C29_chunked_partial _ (hp.comp_size ain aout) numchunks istride ostride inp ilens s s1 rc hn hr hi ho] at h
  obtain ⟨_, hs⟩ := h
  have hlen := (C31_writes_only_regions _ (hp.comp_size ain aout) _ _ _ _ _ _ _ hs).1
  have hiso := C31_isolation _ (hp.comp_size ain aout) _ _ _ _ _ _ _ hs hr (by
    intro i hi' i' hi'' hne ol ol' h1 h2 _ _
    obtain ⟨_, o, _, _, _, _, _, k1, k2, _⟩ := hch i hi'
    obtain ⟨_, o', _, _, _, _, _, k1', k2', _⟩ := hch i' hi''
    rw [h1] at k1; rw [h2] at k1'
    cases k1; cases k1'
    rcases Nat.lt_or_gt_of_ne hne with hlt | hlt
    · exact .inl (stride_disjoint hlt k2)
    · exact .inr (stride_disjoint hlt k2'))
  -- the compressed chunks
  have hcomp : ∀ i < numchunks, ∃ il ol n b, ilens[i]? = some il ∧ s.olens[i]? = some ol ∧
      A.compress ain aout (i * istride) (i * ostride) ((inp.drop (i * istride)).take il) ((s.out.drop (i * ostride)).take ol) = .ret none n b ∧
      s1.olens[i]? = some n ∧ (s1.out.drop (i * ostride)).take n = b.take n ∧ n ≠ 2 ^ 64 - 1 ∧ i * ostride + n ≤ s1.out.length := by
    intro i hi'
    obtain ⟨il, ol, dl, k1, k2, _, _, k5, _, k7, k8, _⟩ := hch i hi'
    obtain ⟨rc', n, b, j1, j2, j3, j4⟩ := (hiso i hi').2 il ol k1 k2 k5
    rw [hok i hi'] at j2
    cases j2
    have hnle := hp.fits _ _ _ _ _ _ _ _ j1
    simp only [List.length_take, List.length_drop] at hnle
    refine ⟨il, ol, n, b, k1, k5, j1, j3, ?_, by omega, by omega⟩
    rw [← j4, List.take_take, Nat.min_eq_left (by omega)]
  have hk := hp.decomp_size bin bout
  -- each chunk can be decompressed
  have hstep : ∀ k, k ≤ numchunks → ∃ t1, Successive (B.decompress bin bout) s1.out s1.olens (fun i => i * ostride) (fun i => i * dstride) k t t1 := by
    intro k
    induction k with
    | zero => intro _; exact ⟨t, .zero⟩
    | succ k ih =>
      intro hkn
      obtain ⟨t1, h1⟩ := ih (by omega)
      obtain ⟨il, ol, n, b, c1, c2, c3, c4, c5, c6, c7⟩ := hcomp k (by omega)
      obtain ⟨il', ol', dl, k1, k2, kP, kin, k5, _, k7, k8, k9, k10, k11, k12⟩ := hch k (by omega)
      rw [c1] at k1; cases k1
      have hlen1 := (C31_writes_only_regions _ hk _ _ _ _ _ _ _ h1).1
      have hol' := (h1.later k (le_refl _)).2.trans k9
      have hx : ((inp.drop (k * istride)).take il).length = il := by simp only [List.length_take, List.length_drop]; omega
      obtain ⟨b', e1, e2⟩ := hp.restores _ _ _ _ _ _ _ _ kP c3 bin bout (k * ostride) (k * dstride) ((t1.out.drop (k * dstride)).take dl)
        (by rw [hx]; simp only [List.length_take, List.length_drop]; omega)
      rw [← c5] at e1
      exact ⟨_, .succ h1 (.call c4 c6 c7 hol' (by omega) e1)⟩
  obtain ⟨t1, ht⟩ := hstep numchunks (Nat.le_refl _)
  refine ⟨t1, ?_, (C31_writes_only_regions _ hk _ _ _ _ _ _ _ ht).1, ?_⟩
  · rw [hB.2, C29_chunked_partial _ hk numchunks ostride dstride _ _ t t1 none hn hr' ho hd]
    exact ⟨rfl, ht⟩
  · intro i hi' il hil
    obtain ⟨il', ol, n, b, c1, c2, c3, c4, c5, c6, c7⟩ := hcomp i hi'
    obtain ⟨il'', ol', dl, k1, k2, kP, kin, k5, _, k7, k8, k9, k10, k11, k12⟩ := hch i hi'
    rw [hil] at c1 k1; cases c1; cases k1
    have hiso' := C31_isolation _ hk _ _ _ _ _ _ _ ht hr' (by
      intro i hi' i' hi'' hne ol ol' h1 h2 _ _
      obtain ⟨_, _, o, _, _, _, _, _, _, _, _, k1, _, k2, _⟩ := hch i hi'
      obtain ⟨_, _, o', _, _, _, _, _, _, _, _, k1', _, k2', _⟩ := hch i' hi''
      rw [h1] at k1; rw [h2] at k1'
      cases k1; cases k1'
      rcases Nat.lt_or_gt_of_ne hne with hlt | hlt
      · exact .inl (stride_disjoint hlt k2)
      · exact .inr (stride_disjoint hlt k2'))
    obtain ⟨rc', m, b', j1, j2, j3, j4⟩ := (hiso' i hi').2 n dl c4 c6 k9
    have hx : ((inp.drop (i * istride)).take il).length = il := by simp only [List.length_take, List.length_drop]; omega
    obtain ⟨b'', e1, e2⟩ := hp.restores _ _ _ _ _ _ _ _ kP c3 bin bout (i * ostride) (i * dstride) ((t.out.drop (i * dstride)).take dl)
      (by rw [hx]; simp only [List.length_take, List.length_drop]; omega)
    rw [c5, e1] at j1
    simp only [Call.ret.injEq] at j1
    obtain ⟨rfl, rfl, rfl⟩ := j1
    refine ⟨j2, by rw [j3, hx], ?_⟩
    rw [hx] at e2
    rw [← e2, ← j4, List.take_take, Nat.min_eq_left (by omega)]

/-- C113: the tables of all three implementations have the chunked functions that belong to their single-chunk functions (in spite of the exchanged macros). -/
theorem C113_tables (e : Endian) (oj : OptJunk) (j : CompJunk) (a : Accel) :
    ImplChunked (swImpl e j) ∧ ImplChunked (optImpl e oj j) ∧ ImplChunked (aixImpl a) :=
  ⟨⟨fun _ _ _ _ _ _ _ => rfl, fun _ _ _ _ _ _ _ => rfl⟩, ⟨fun _ _ _ _ _ _ _ => rfl, fun _ _ _ _ _ _ _ => rfl⟩,
    ⟨fun _ _ _ _ _ _ _ => rfl, fun _ _ _ _ _ _ _ => rfl⟩⟩

/-- C113: the two software implementations fit together in all four ways, for data of whole 8-byte blocks below 4 GiB, at all addresses and on hosts of either byte order. -/
theorem C113_software_pairs (e e' : Endian) (oj oj' : OptJunk) (j j' : CompJunk) (A B : ImplTable)
    (hA : A = swImpl e j ∨ A = optImpl e oj j) (hB : B = swImpl e' j' ∨ B = optImpl e' oj' j') :
    ImplChunked A ∧ ImplChunked B ∧ ImplPair A B (fun x => x.length % 8 = 0 ∧ x.length ≤ 0xffffffff) := by
  have ks := fun ain aout => C29_functions_keep_size e ain aout oj j
  have ks' := fun ain aout => C29_functions_keep_size e' ain aout oj' j'
  refine ⟨?_, ?_, ?_, ?_, ?_, ?_⟩
  · rcases hA with rfl | rfl
    · exact (C113_tables e oj j ⟨fun _ _ _ _ => .ub, fun _ _ _ _ => .ub⟩).1
    · exact (C113_tables e oj j ⟨fun _ _ _ _ => .ub, fun _ _ _ _ => .ub⟩).2.1
  · rcases hB with rfl | rfl
    · exact (C113_tables e' oj' j' ⟨fun _ _ _ _ => .ub, fun _ _ _ _ => .ub⟩).1
    · exact (C113_tables e' oj' j' ⟨fun _ _ _ _ => .ub, fun _ _ _ _ => .ub⟩).2.1
  · intro ain aout
    rcases hA with rfl | rfl
    · exact (ks ain aout).1
    · exact (ks ain aout).2.2.1
  · intro ain aout
    rcases hB with rfl | rfl
    · exact (ks' ain aout).2.1
    · exact (ks' ain aout).2.2.2
  · intro ain aout so d x buf n b h
    rcases hA with rfl | rfl
    · have hk := (ks ain aout).1 so d x buf none n b h
      obtain ⟨_, hle, _⟩ := sw842Compress_ok (show sw842Compress e (ain + so) j x buf = .ret none n b from h)
      omega
    · have hk := (ks ain aout).2.2.1 so d x buf none n b h
      obtain ⟨_, _, _, hle, _⟩ := optsw842Compress_ok (show optsw842Compress e (ain + so) (aout + d) oj j x buf = .ret none n b from h)
      omega
  · intro ain aout so d x buf n b ⟨h8, hx⟩ h ain' aout' so' d' buf' hcap
    rcases hA with rfl | rfl <;> rcases hB with rfl | rfl
    · obtain ⟨b', h1, h2, _⟩ := C01_sw_round_trip e e' (ain + so) (aout' + d') j x buf buf' n b hx h hcap
      exact ⟨b', h1, h2⟩
    · obtain ⟨b', h1, h2, _⟩ := C03_sw_then_opt e e' (ain + so) (ain' + so') (aout' + d') j x buf buf' n b h8 h hcap (.inr hx)
      exact ⟨b', h1, h2⟩
    · obtain ⟨b', h1, h2, _⟩ := C03_opt_then_sw e e' (ain + so) (aout + d) (aout' + d') oj j x buf buf' n b hx h hcap
      exact ⟨b', h1, h2⟩
    · obtain ⟨b', h1, h2, _⟩ := C02_opt_round_trip_partial e e' (ain + so) (aout + d) (ain' + so') (aout' + d') oj j x buf buf' n b h hcap (.inr hx)
      exact ⟨b', h1, h2⟩

/-- C113: data compressed by AIX is restored by AIX, if the functions of the operating system do so for single chunks. -/
theorem C113_aix (a : Accel) (P : List Byte → Prop)
    (hc : ∀ p q x buf rc n b, a.compress p q x buf = .ret rc n b → b.length = buf.length ∧ (rc = none → n ≤ buf.length))
    (hd : ∀ p q x buf rc n b, a.decompress p q x buf = .ret rc n b → b.length = buf.length)
    (hr : ∀ p q x buf n b, P x → a.compress p q x buf = .ret none n b → ∀ p' q' buf', x.length ≤ buf'.length →
      ∃ b', a.decompress p' q' (b.take n) buf' = .ret none x.length b' ∧ b'.take x.length = x) :
    ImplChunked (aixImpl a) ∧ ImplPair (aixImpl a) (aixImpl a) P :=
  ⟨(C113_tables .little ojunk0 junk0 a).2.2,
    fun _ _ _ _ _ _ _ _ _ h => (hc _ _ _ _ _ _ _ h).1, fun _ _ _ _ _ _ _ _ _ h => hd _ _ _ _ _ _ _ h,
    fun _ _ _ _ _ _ _ _ h => (hc _ _ _ _ _ _ _ h).2 rfl,
    fun _ _ _ _ _ _ _ _ hP h _ _ _ _ _ hcap => hr _ _ _ _ _ _ hP h _ _ _ hcap⟩

-- Two chunks: compressed by one software implementation, decompressed by the other
example : (match (swImpl .little junk0).compressChunked 0 0 2 8 24 [1, 2, 3, 4, 5, 6, 7, 8, 0, 0, 0, 0, 0, 0, 0, 0] [8, 8]
      ⟨[some .EINVAL, some .EINVAL], List.replicate 48 0xaa, [24, 24]⟩ with
    | .ok none s => s.rets == [none, none] && s.olens == [16, 8] &&
      (match (optImpl .big ojunk0 junk0).decompressChunked 3 8 2 24 16 s.out s.olens ⟨[some .EINVAL, some .EINVAL], List.replicate 32 0x55, [16, 16]⟩ with
      | .ok none t => t.rets == [none, none] && t.olens == [8, 8] && t.out.take 8 == [1, 2, 3, 4, 5, 6, 7, 8] && (t.out.drop 16).take 8 == List.replicate 8 0
      | _ => false)
    | _ => false) = true := by decide +kernel

-- A system that copies the data meets the hypotheses of `C113_aix`
example : ∃ a : Accel, (∃ b, a.compress 0 0 [1, 2] [0, 0, 0] = .ret none 2 b) ∧
    ImplPair (aixImpl a) (aixImpl a) (fun _ => True) := by
  let cp : Nat → Nat → List Byte → List Byte → Call := fun _ _ x buf =>
    if x.length ≤ buf.length then .ret none x.length (x ++ buf.drop x.length) else .ret (some .ENOSPC) 0 buf
  have hcp : ∀ p q x buf rc n b, cp p q x buf = .ret rc n b → b.length = buf.length ∧ (rc = none → n = x.length ∧ n ≤ buf.length ∧ b.take n = x) := by
    intro p q x buf rc n b h
    simp only [cp] at h
    split at h
    · cases h
      simp; omega
    · cases h
      simp
  refine ⟨⟨cp, cp⟩, ⟨_, rfl⟩, (C113_aix ⟨cp, cp⟩ _ ?_ ?_ ?_).2⟩
  · exact fun p q x buf rc n b h => ⟨(hcp p q x buf rc n b h).1, fun hrc => ((hcp p q x buf rc n b h).2 hrc).2.1⟩
  · exact fun p q x buf rc n b h => (hcp p q x buf rc n b h).1
  · intro p q x buf n b _ h p' q' buf' hcap
    rw [((hcp p q x buf none n b h).2 rfl).2.2]
    refine ⟨x ++ buf'.drop x.length, ?_, by simp⟩
    simp only [cp, if_pos hcap]

end Lib842.Props
