import Verif.Proofs.Condense
/-!
# The sample with single chunks, for compressors and decompressors that may fail
-/

namespace Lib842

/-- What remains of the contract when compressor and decompressor may report anything: they stay within their buffers. -/
structure StaysInside (f g : ChunkFn) : Prop where
  ftotal : ∀ a o src dst, src.length = 65536 → dst.length = 65536 →
    ∃ rc n b, f a o src dst = .ret rc n b ∧ b.length = 65536 ∧ (rc = none → n ≤ 65536)
  gtotal : ∀ a o src dst, src.length ≤ 65536 → dst.length = 65536 →
    ∃ rc n b, g a o src dst = .ret rc n b ∧ b.length = 65536

theorem compOne_safe {f g : ChunkFn} (hc : StaysInside f g) {req pref ain aout num k : Nat} {inp : List Byte}
    (hk : k < num) (hin : num * 65536 ≤ inp.length) (m : OmpMem) (hb : m.buf.length = num * 65536) (hs : m.sizes.length = num) :
    ∃ m', compOne (Impl.trivial f g req pref) ain aout inp k m = .ok m' ∧
      m'.buf.length = num * 65536 ∧ m'.sizes.length = num ∧
      (m'.success = true → m.success = true ∧ ∃ n, m'.sizes[k]? = some n ∧ (n = SIZE_MAX ∨ n ≤ 65536)) ∧
      ((∃ e n b, f (ain + 65536 * k) (aout + 65536 * k) (chunkOf inp k) (chunkOf m.buf k) = .ret (some e) n b ∧ e ≠ .ENOSPC) →
        m'.success = false) ∧
      (∀ i, i ≠ k → m'.sizes[i]? = m.sizes[i]? ∧ chunkOf m'.buf i = chunkOf m.buf i) := by
  have hbl : num * 65536 ≤ m.buf.length := by omega
  have l1 := length_chunkOf (data := inp) (i := k) (chunk_le hk hin).2
  have l2 := length_chunkOf (data := m.buf) (i := k) (chunk_le hk hbl).2
  obtain ⟨sz, s1, s2, s3, s4⟩ := fillOne (sizes := m.sizes) (k := k) (by omega)
  obtain ⟨rc, n, b, hf, hbl', hn⟩ := hc.ftotal (ain + 65536 * k) (aout + 65536 * k) _ _ l1 l2
  obtain ⟨b', hw⟩ := writeBytes_some (m := m.buf) (bs := b) (i := 65536 * k) (by have := (chunk_le hk hbl).1; omega)
  obtain ⟨w1, w2, w3⟩ := writeBytes_chunk hbl' hw
  have hw' : writeBytes m.buf (sampleChunk * k) b = some b' := hw
  have hf' : f (ain + sampleChunk * k) (aout + sampleChunk * k) (chunkOf inp k) (chunkOf m.buf k) = .ret rc n b := hf
  have hp1 : ptrAdd (some inp) (sampleChunk * k) = .ok (some (inp.drop (sampleChunk * k))) :=
    ptrAdd_some (by have := (chunk_le hk hin).1; unfold sampleChunk; omega)
  have hp2 : ptrAdd (some m.buf) (sampleChunk * k) = .ok (some (m.buf.drop (sampleChunk * k))) :=
    ptrAdd_some (by have := (chunk_le hk hbl).1; unfold sampleChunk; omega)
  have r1 := readBytes_chunk hk hin
  have r2 : readBytes m.buf (sampleChunk * k) 65536 = some (chunkOf m.buf k) := readBytes_chunk hk hbl
  have hE : compOne (Impl.trivial f g req pref) ain aout inp k m =
      if rc = some .ENOSPC then .ok ⟨b', (sz.set k n).set k SIZE_MAX, m.success⟩
      else .ok ⟨b', sz.set k n, if rc = none then m.success else false⟩ := by
    unfold compOne
    simp only [hp1, hp2, s1, r1, s3, r2, BRes.access, bind, BRes.bind, Impl.trivial, hf', hw']
  by_cases hE1 : rc = some .ENOSPC
  · rw [if_pos hE1] at hE
    refine ⟨_, hE, by show b'.length = _; omega,
      by show ((sz.set k n).set k SIZE_MAX).length = _; rw [List.length_set, List.length_set]; omega,
      fun h => ⟨h, SIZE_MAX, ?_, Or.inl rfl⟩, ?_, fun i hi => ⟨?_, w3 i hi⟩⟩
    · show ((sz.set k n).set k SIZE_MAX)[k]? = _
      rw [List.getElem?_set_self (by rw [List.length_set]; omega)]
    · rintro ⟨e, n', b'', h1, h2⟩
      rw [hf] at h1
      injection h1 with h1
      rw [hE1] at h1
      injection h1 with h1
      exact absurd h1.symm h2
    · show ((sz.set k n).set k SIZE_MAX)[i]? = _
      rw [List.getElem?_set_ne (by omega), List.getElem?_set_ne (by omega), s4 i hi]
  · rw [if_neg hE1] at hE
    refine ⟨_, hE, by show b'.length = _; omega,
      by show (sz.set k n).length = _; rw [List.length_set]; omega,
      fun h => ?_, ?_, fun i hi => ⟨?_, w3 i hi⟩⟩
    · have h : (if rc = none then m.success else false) = true := h
      by_cases hr : rc = none
      · rw [if_pos hr] at h
        refine ⟨h, n, ?_, Or.inr (hn hr)⟩
        show (sz.set k n)[k]? = _
        rw [List.getElem?_set_self (by omega)]
      · rw [if_neg hr] at h
        cases h
    · rintro ⟨e, n', b'', h1, h2⟩
      rw [hf] at h1
      injection h1 with h1
      show (if rc = none then m.success else false) = false
      rw [if_neg (by rw [h1]; simp)]
    · show (sz.set k n)[i]? = _
      rw [List.getElem?_set_ne (by omega), s4 i hi]

theorem compOneLoop_safe {f g : ChunkFn} (hc : StaysInside f g) {req pref ain aout num : Nat} {inp : List Byte}
    (hin : num * 65536 ≤ inp.length) :
    ∀ (ks : List Nat), (∀ k ∈ ks, k < num) → ks.Nodup → ∀ m : OmpMem, m.buf.length = num * 65536 → m.sizes.length = num →
    ∃ m', forEach (compOne (Impl.trivial f g req pref) ain aout inp) ks m = .ok m' ∧
      m'.buf.length = num * 65536 ∧ m'.sizes.length = num ∧
      (m'.success = true → m.success = true ∧ ∀ i ∈ ks, ∃ n, m'.sizes[i]? = some n ∧ (n = SIZE_MAX ∨ n ≤ 65536)) ∧
      ((∃ i ∈ ks, ∃ e n b, f (ain + 65536 * i) (aout + 65536 * i) (chunkOf inp i) (chunkOf m.buf i) = .ret (some e) n b ∧
        e ≠ .ENOSPC) → m'.success = false) ∧
      ∀ i, i ∉ ks → m'.sizes[i]? = m.sizes[i]? ∧ chunkOf m'.buf i = chunkOf m.buf i
  | [], _, _, m, hb, hs => ⟨m, rfl, hb, hs, fun h => ⟨h, fun i h => (by cases h)⟩, fun ⟨i, h, _⟩ => (by cases h),
      fun i _ => ⟨rfl, rfl⟩⟩
  | k :: ks, hks, hnd, m, hb, hs => by
    obtain ⟨m1, a1, a3, a4, a5, a5', a6⟩ := compOne_safe hc (req := req) (pref := pref) (ain := ain) (aout := aout)
      (hks k List.mem_cons_self) hin m hb hs
    obtain ⟨hnk, hnd'⟩ := List.nodup_cons.1 hnd
    obtain ⟨m2, b1, b3, b4, b5, b5', b6⟩ := compOneLoop_safe hc (req := req) (pref := pref) (ain := ain) (aout := aout) hin ks
      (fun k' hk' => hks k' (List.mem_cons_of_mem _ hk')) hnd' m1 a3 a4
    refine ⟨m2, ?_, b3, b4, fun h => ?_, ?_, fun i hmem => ?_⟩
    · show BRes.bind (compOne (Impl.trivial f g req pref) ain aout inp k m) _ = _
      rw [a1]
      exact b1
    · obtain ⟨c1, c2⟩ := b5 h
      obtain ⟨d1, n, d2, d3⟩ := a5 c1
      refine ⟨d1, fun i hmem => ?_⟩
      rcases List.mem_cons.1 hmem with rfl | h
      · exact ⟨n, (b6 i hnk).1.trans d2, d3⟩
      · exact c2 i h
    · rintro ⟨i, hmem, e, n, b, h1, h2⟩
      rcases List.mem_cons.1 hmem with rfl | h
      · have := a5' ⟨e, n, b, h1, h2⟩
        by_contra hne
        rw [Bool.not_eq_false] at hne
        rw [(b5 hne).1] at this
        cases this
      · rw [← (a6 i fun hx => hnk (hx ▸ h)).2] at h1
        exact b5' ⟨i, h, e, n, b, h1, h2⟩
    · obtain ⟨c1, c2⟩ := a6 i fun hx => hmem (hx ▸ List.mem_cons_self)
      obtain ⟨d1, d2⟩ := b6 i fun hx => hmem (List.mem_cons_of_mem _ hx)
      exact ⟨d1.trans c1, d2.trans c2⟩

theorem decompOne_safe {f g : ChunkFn} (hc : StaysInside f g) {req pref acomp adec num k n pos : Nat} {inp comp : List Byte}
    {poss csizes : List Nat} (hk : k < num) (hin : inp.length = num * 65536)
    (h1 : csizes[k]? = some n) (h2 : poss[k]? = some pos) (h3 : pos ≤ comp.length)
    (h4 : n ≠ SIZE_MAX → n ≤ 65536 ∧ pos + n ≤ comp.length)
    (m : OmpMem) (hb : m.buf.length = num * 65536) (hs : m.sizes.length = num) :
    ∃ m', decompOne (Impl.trivial f g req pref) acomp adec inp comp poss csizes k m = .ok m' ∧
      m'.buf.length = num * 65536 ∧ m'.sizes.length = num := by
  have hbl : num * 65536 ≤ m.buf.length := by omega
  have hil : num * 65536 ≤ inp.length := by omega
  have l1 := length_chunkOf (data := inp) (i := k) (chunk_le hk hil).2
  have l2 := length_chunkOf (data := m.buf) (i := k) (chunk_le hk hbl).2
  obtain ⟨sz, s1, s2, s3, s4⟩ := fillOne (sizes := m.sizes) (k := k) (by omega)
  have hp1 : ptrAdd (some comp) pos = .ok (some (comp.drop pos)) := ptrAdd_some h3
  have hp2 : ptrAdd (some m.buf) (sampleChunk * k) = .ok (some (m.buf.drop (sampleChunk * k))) :=
    ptrAdd_some (by have := (chunk_le hk hbl).1; unfold sampleChunk; omega)
  have r1 := readBytes_chunk hk hil
  have r2 : readBytes m.buf (sampleChunk * k) 65536 = some (chunkOf m.buf k) := readBytes_chunk hk hbl
  by_cases hn : n = SIZE_MAX
  · obtain ⟨b', hw⟩ := writeBytes_some (m := m.buf) (bs := chunkOf inp k) (i := 65536 * k)
      (by have := (chunk_le hk hbl).1; omega)
    obtain ⟨w1, w2, w3⟩ := writeBytes_chunk l1 hw
    have hw' : writeBytes m.buf (sampleChunk * k) (chunkOf inp k) = some b' := hw
    refine ⟨⟨b', sz.set k 65536, m.success⟩, ?_, by show b'.length = _; omega,
      by show (sz.set k 65536).length = _; rw [List.length_set]; omega⟩
    unfold decompOne
    simp only [h2, hp1, hp2, s1, h1, BRes.access, bind, BRes.bind]
    rw [if_neg (by simp [hn])]
    simp only [r1, hw']
    rfl
  · obtain ⟨h5, h6⟩ := h4 hn
    have r3 : readBytes comp pos n = some ((comp.drop pos).take n) := if_pos h6
    obtain ⟨rc, no, b, hg, hgl⟩ := hc.gtotal (acomp + pos) (adec + 65536 * k) ((comp.drop pos).take n) (chunkOf m.buf k)
      (by rw [List.length_take]; omega) l2
    obtain ⟨b', hw⟩ := writeBytes_some (m := m.buf) (bs := b) (i := 65536 * k)
      (by have := (chunk_le hk hbl).1; omega)
    obtain ⟨w1, w2, w3⟩ := writeBytes_chunk hgl hw
    have hw' : writeBytes m.buf (sampleChunk * k) b = some b' := hw
    have hg' : g (acomp + pos) (adec + sampleChunk * k) ((comp.drop pos).take n) (chunkOf m.buf k) = .ret rc no b := hg
    refine ⟨⟨b', sz.set k no, m.success⟩, ?_, by show b'.length = _; omega,
      by show (sz.set k no).length = _; rw [List.length_set]; omega⟩
    unfold decompOne
    simp only [h2, hp1, hp2, s1, h1, BRes.access, bind, BRes.bind]
    rw [if_pos hn]
    simp only [r3, s3, r2, Impl.trivial, hg', hw']

theorem decompOneLoop_safe {f g : ChunkFn} (hc : StaysInside f g) {req pref acomp adec num : Nat} {inp comp : List Byte}
    {poss csizes : List Nat} (hin : inp.length = num * 65536)
    (hst : ∀ i < num, ∃ n pos, csizes[i]? = some n ∧ poss[i]? = some pos ∧ pos ≤ comp.length ∧
      (n ≠ SIZE_MAX → n ≤ 65536 ∧ pos + n ≤ comp.length)) :
    ∀ (ks : List Nat), (∀ k ∈ ks, k < num) → ∀ m : OmpMem, m.buf.length = num * 65536 → m.sizes.length = num →
    ∃ m', forEach (decompOne (Impl.trivial f g req pref) acomp adec inp comp poss csizes) ks m = .ok m' ∧
      m'.buf.length = num * 65536 ∧ m'.sizes.length = num
  | [], _, m, hb, hs => ⟨m, rfl, hb, hs⟩
  | k :: ks, hks, m, hb, hs => by
    have hk := hks k List.mem_cons_self
    obtain ⟨n, pos, h1, h2, h3, h4⟩ := hst k hk
    obtain ⟨m1, a1, a2, a3⟩ := decompOne_safe hc (req := req) (pref := pref) (acomp := acomp) (adec := adec) hk hin
      h1 h2 h3 h4 m hb hs
    obtain ⟨m2, b1, b2, b3⟩ := decompOneLoop_safe hc (req := req) (pref := pref) (acomp := acomp) (adec := adec) hin hst ks
      (fun k' hk' => hks k' (List.mem_cons_of_mem _ hk')) m1 a2 a3
    refine ⟨m2, ?_, b2, b3⟩
    show BRes.bind (decompOne (Impl.trivial f g req pref) acomp adec inp comp poss csizes k m) _ = _
    rw [a1]
    exact b1

end Lib842
