import Verif.Model.Sample
import Verif.Proofs.StreamBlock
/-!
# The sample program: helper lemmas
-/

namespace Lib842
open Lib842.Props

theorem chunkOf_ext {l l' : List Byte} {i i' : Nat}
    (h : ∀ j < 65536, l[i * 65536 + j]? = l'[i' * 65536 + j]?) : chunkOf l i = chunkOf l' i' := by
  apply List.ext_getElem?
  intro j
  by_cases hj : j < 65536
  · rw [getElem?_chunkOf _ hj, getElem?_chunkOf _ hj, h j hj]
  · unfold chunkOf
    rw [List.getElem?_take_eq_none (by omega), List.getElem?_take_eq_none (by omega)]

/-- Chunk `i` of `n` chunks ends within the buffer. -/
theorem chunk_le {n i L : Nat} (hi : i < n) (ho : n * 65536 ≤ L) : i * 65536 + 65536 ≤ L ∧ (i + 1) * 65536 ≤ L := by
  have h := Nat.le_trans (Nat.mul_le_mul_right 65536 (show i + 1 ≤ n from hi)) ho
  exact ⟨by rw [← Nat.succ_mul]; exact h, h⟩

theorem rest_le {n k num L : Nat} (h : k + n ≤ num) (ho : num * 65536 ≤ L) : n * 65536 ≤ L - 65536 * k := by
  have h1 := Nat.le_trans (Nat.mul_le_mul_right 65536 h) ho
  rw [Nat.add_mul, Nat.add_comm, Nat.mul_comm k] at h1
  exact Nat.le_sub_of_add_le h1

theorem chunkOf_drop (l : List Byte) (k i : Nat) : chunkOf (l.drop (65536 * k)) i = chunkOf l (k + i) := by
  apply chunkOf_ext
  intro j _
  rw [List.getElem?_drop]
  congr 1
  omega

/-- A list is determined by its chunks. -/
theorem eq_of_chunks {l l' : List Byte} {num : Nat} (h1 : l.length = num * 65536) (h2 : l'.length = num * 65536)
    (h : ∀ i < num, chunkOf l i = chunkOf l' i) : l = l' := by
  apply List.ext_getElem?
  intro j
  by_cases hj : j < num * 65536
  · have := congrArg (fun x => x[j % 65536]?) (h (j / 65536) (by omega))
    rw [getElem?_chunkOf _ (by omega), getElem?_chunkOf _ (by omega)] at this
    rw [show j / 65536 * 65536 + j % 65536 = j by omega] at this
    exact this
  · rw [List.getElem?_eq_none (by omega), List.getElem?_eq_none (by omega)]

/-- A trivial chunked call for up to 16 chunks at a distance of 64 KiB. -/
theorem batch_calls {h : ChunkFn} (hk : KeepsSize h) {n a o : Nat} (hn : n ≤ 16) {inp out : List Byte} {ilens olens : List Nat}
    {rets : List (Option Errno)} (hr : n ≤ rets.length) (ho : n * 65536 ≤ out.length)
    (hol : ∀ i < n, olens[i]? = some 65536)
    (hcall : ∀ i < n, ∃ il, ilens[i]? = some il ∧ (il ≠ SIZE_MAX → i * 65536 + il ≤ inp.length ∧
      ∀ dst, dst.length = 65536 → ∃ rc nn b,
        h (a + i * 65536) (o + i * 65536) ((inp.drop (i * 65536)).take il) dst = .ret rc nn b)) :
    ∃ s', trivialChunked h a o n 65536 65536 inp ilens ⟨rets, out, olens⟩ = .ok none s' ∧
      s'.out.length = out.length ∧ s'.rets.length = rets.length ∧ s'.olens.length = olens.length ∧
      (∀ i < n, (ilens[i]? = some SIZE_MAX → s'.rets[i]? = rets[i]? ∧ s'.olens[i]? = some 65536 ∧
          chunkOf s'.out i = chunkOf out i) ∧
        ∀ il, ilens[i]? = some il → il ≠ SIZE_MAX → ∃ rc nn b,
          h (a + i * 65536) (o + i * 65536) ((inp.drop (i * 65536)).take il) (chunkOf out i) = .ret rc nn b ∧
          s'.rets[i]? = some rc ∧ s'.olens[i]? = some nn ∧ chunkOf s'.out i = b) ∧
      ∀ i, n ≤ i → s'.olens[i]? = olens[i]? ∧ chunkOf s'.out i = chunkOf out i := by
  have hks := keepsSize_shift hk a o
  obtain ⟨s', hs⟩ := successive_total (s := ⟨rets, out, olens⟩) hks (inp := inp) (ilens := ilens)
    (so := fun i => i * 65536) (d := fun i => i * 65536) n (by
      intro i hi
      obtain ⟨il, h1, h2⟩ := hcall i hi
      refine ⟨il, h1, fun hne => ?_⟩
      obtain ⟨h3, h4⟩ := h2 hne
      exact ⟨h3, 65536, hol i hi, (chunk_le hi ho).1, h4⟩)
  have hc : trivialChunked h a o n 65536 65536 inp ilens ⟨rets, out, olens⟩ = .ok none s' := by
    unfold trivialChunked
    rw [C29_chunked_partial _ hks n 65536 65536 inp ilens _ s' none (by omega) hr (by omega) (by omega)]
    exact ⟨rfl, hs⟩
  have hiso := C31_isolation _ hks _ _ _ _ _ _ _ hs hr (by
    intro i hi i' hi' hne ol ol' hol1 hol' _ _
    have h1 := hol i hi
    have h2 := hol i' hi'
    simp only at hol1 hol'
    rw [h1] at hol1
    rw [h2] at hol'
    cases hol1; cases hol'
    omega)
  obtain ⟨w1, w2⟩ := C31_writes_only_regions _ hks _ _ _ _ _ _ _ hs
  refine ⟨s', hc, w1, hs.lens.1, hs.lens.2, fun i hi => ⟨fun hsk => ?_, fun il hil hne => ?_⟩, fun i hi => ⟨?_, ?_⟩⟩
  · obtain ⟨h1, h2⟩ := (hiso i hi).1 hsk
    refine ⟨h1, h2.trans (hol i hi), chunkOf_ext fun j hj => w2 _ ?_⟩
    intro i' hi' ol hol' hns hcon
    simp only at hol'
    rw [hol i' hi'] at hol'
    cases hol'
    have : i' = i := by omega
    subst this
    exact hns hsk
  · obtain ⟨rc, nn, b, h1, h2, h3, h4⟩ := (hiso i hi).2 il 65536 hil hne (hol i hi)
    exact ⟨rc, nn, b, h1, h2, h3, h4⟩
  · exact (hs.later i hi).2
  · refine chunkOf_ext fun j hj => w2 _ ?_
    intro i' hi' ol hol' hns hcon
    simp only at hol'
    rw [hol i' hi'] at hol'
    cases hol'
    omega

/-- What the sample expects of compressor and decompressor. -/
structure SampleContract (f g : ChunkFn) : Prop extends ChunkContract f g where
  fails : ∀ a o src dst e n buf, src.length = 65536 → dst.length = 65536 → f a o src dst = .ret (some e) n buf →
    e = .ENOSPC
  fits : ∀ a o src dst n buf, src.length = 65536 → dst.length = 65536 → f a o src dst = .ret none n buf → n ≤ 65536

theorem batchChunks_le (num k : Nat) : batchChunks num k ≤ 16 ∧ batchChunks num k ≤ num - k ∧
    (batchChunks num k = 16 ∨ batchChunks num k = num - k) := by
  unfold batchChunks chunksPerBatch
  split <;> omega

theorem fillSizes_get {sizes : List Nat} {k n v : Nat} (h : k + n ≤ sizes.length) :
    ∃ l, fillSizes sizes k n v = some l ∧ l.length = sizes.length ∧
      (∀ i < n, l[k + i]? = some v) ∧ ∀ i, ¬ (k ≤ i ∧ i < k + n) → l[i]? = sizes[i]? := by
  refine ⟨_, if_pos h, ?_, fun i hi => ?_, fun i hi => ?_⟩
  · simp only [List.length_append, List.length_take, List.length_replicate, List.length_drop]; omega
  · rw [List.append_assoc, List.getElem?_append_right (by rw [List.length_take]; omega), List.length_take,
      Nat.min_eq_left (by omega), List.getElem?_append_left (by rw [List.length_replicate]; omega),
      List.getElem?_replicate, if_pos (by omega)]
  · by_cases hk : i < k
    · rw [List.append_assoc, List.getElem?_append_left (by rw [List.length_take]; omega),
        List.getElem?_take_of_lt hk]
    · rw [List.getElem?_append_right (by simp only [List.length_append, List.length_take, List.length_replicate]; omega),
        List.getElem?_drop]
      congr 1
      simp only [List.length_append, List.length_take, List.length_replicate]; omega

theorem getElem?_take_append {α : Type} (l t : List α) {k : Nat} (hk : k ≤ l.length) (i : Nat) :
    (l.take k ++ t)[i]? = if i < k then l[i]? else t[i - k]? := by
  by_cases h : i < k
  · rw [if_pos h, List.getElem?_append_left (by rw [List.length_take]; omega), List.getElem?_take_of_lt h]
  · rw [if_neg h, List.getElem?_append_right (by rw [List.length_take]; omega), List.length_take,
      Nat.min_eq_left hk]

theorem chunkOf_take_append (l t : List Byte) {k i : Nat} (hk : 65536 * k ≤ l.length) :
    (i < k → chunkOf (l.take (65536 * k) ++ t) i = chunkOf l i) ∧
    (k ≤ i → chunkOf (l.take (65536 * k) ++ t) i = chunkOf t (i - k)) := by
  refine ⟨fun h => chunkOf_ext fun j hj => ?_, fun h => chunkOf_ext fun j hj => ?_⟩
  · rw [getElem?_take_append _ _ hk, if_pos (by omega)]
  · rw [getElem?_take_append _ _ hk, if_neg (by omega)]
    congr 1
    omega

theorem markLoop {rets : List (Option Errno)} {k : Nat} : ∀ (cs : List Nat) (sizes : List Nat),
    (∀ c ∈ cs, c < rets.length ∧ k + c < sizes.length) →
    ∃ l, forEach (markIncompressible rets k) cs sizes = .ok l ∧ l.length = sizes.length ∧
      ∀ i, l[i]? = if k ≤ i ∧ i - k ∈ cs ∧ rets[i - k]? = some (some .ENOSPC) then some SIZE_MAX else sizes[i]?
  | [], sizes, _ => ⟨sizes, rfl, rfl, fun i => by rw [if_neg (by rintro ⟨-, h, -⟩; cases h)]⟩
  | c :: cs, sizes, h => by
    obtain ⟨h1, h2⟩ := h c List.mem_cons_self
    have hget : rets[c]? = some rets[c] := List.getElem?_eq_getElem h1
    have hbody : ∃ s1, markIncompressible rets k c sizes = .ok s1 ∧ s1.length = sizes.length ∧
        ∀ i, s1[i]? = if i = k + c ∧ rets[c]? = some (some .ENOSPC) then some SIZE_MAX else sizes[i]? := by
      unfold markIncompressible
      rw [hget]
      simp only [BRes.access, bind, BRes.bind]
      by_cases he : rets[c] = some .ENOSPC
      · rw [if_pos he, if_pos h2]
        refine ⟨_, rfl, by simp, fun i => ?_⟩
        rw [List.getElem?_set]
        by_cases hi : k + c = i
        · subst hi; rw [if_pos rfl, if_pos h2, if_pos ⟨rfl, by rw [he]⟩]
        · rw [if_neg hi, if_neg (by omega)]
      · rw [if_neg he]
        refine ⟨_, rfl, rfl, fun i => ?_⟩
        rw [if_neg]
        rintro ⟨-, hx⟩
        exact he (Option.some.inj hx)
    obtain ⟨s1, e1, l1, g1⟩ := hbody
    obtain ⟨l, e2, l2, g2⟩ := markLoop cs s1 (fun c' hc' => by
      rw [l1]; exact h c' (List.mem_cons_of_mem _ hc'))
    refine ⟨l, ?_, l2.trans l1, fun i => ?_⟩
    · show BRes.bind (markIncompressible rets k c sizes) _ = _
      rw [e1]
      exact e2
    · rw [g2 i, g1 i]
      by_cases hA : k ≤ i ∧ i - k ∈ cs ∧ rets[i - k]? = some (some .ENOSPC)
      · rw [if_pos hA, if_pos ⟨hA.1, List.mem_cons_of_mem _ hA.2.1, hA.2.2⟩]
      · rw [if_neg hA]
        by_cases hB : i = k + c ∧ rets[c]? = some (some .ENOSPC)
        · rw [if_pos hB, if_pos]
          refine ⟨by omega, ?_, ?_⟩
          · rw [show i - k = c by omega]; exact List.mem_cons_self
          · rw [show i - k = c by omega]; exact hB.2
        · rw [if_neg hB, if_neg]
          rintro ⟨h3, h4, h5⟩
          rcases List.mem_cons.1 h4 with h6 | h6
          · exact hB ⟨by omega, by rw [← h6]; exact h5⟩
          · exact hA ⟨h3, h6, h5⟩

/-- One iteration of the compression loop. -/
theorem compBatch_spec {f g : ChunkFn} (hc : SampleContract f g) {req pref ain aout num k : Nat} {inp : List Byte}
    {rets0 : Nat → List (Option Errno)} (hk : k < num) (hin : num * 65536 ≤ inp.length)
    (hr : (rets0 k).length = 16) (m : OmpMem) (hb : m.buf.length = num * 65536) (hs : m.sizes.length = num) :
    ∃ m', compBatch (Impl.trivial f g req pref) ain aout inp num rets0 k m = .ok m' ∧ m'.success = m.success ∧
      m'.buf.length = num * 65536 ∧ m'.sizes.length = num ∧
      (∀ i, k ≤ i → i < k + 16 → i < num → ∃ rc n b,
        f (ain + 65536 * i) (aout + 65536 * i) (chunkOf inp i) (chunkOf m.buf i) = .ret rc n b ∧
        m'.sizes[i]? = some (if rc = none then n else SIZE_MAX) ∧ chunkOf m'.buf i = b) ∧
      ∀ i, ¬ (k ≤ i ∧ i < k + 16) → m'.sizes[i]? = m.sizes[i]? ∧ chunkOf m'.buf i = chunkOf m.buf i := by
  obtain ⟨n1, n2, n3⟩ := batchChunks_le num k
  generalize hn : batchChunks num k = n at n1 n2 n3
  obtain ⟨sz, f1, f2, f3, f4⟩ := fillSizes_get (sizes := m.sizes) (k := k) (n := n) (v := 65536) (by omega)
  have hlin : (inp.drop (65536 * k)).length = inp.length - 65536 * k := List.length_drop
  have hlout : (m.buf.drop (65536 * k)).length = m.buf.length - 65536 * k := List.length_drop
  have hkn1 : n * 65536 ≤ (inp.drop (65536 * k)).length := hlin ▸ rest_le (by omega) hin
  have hkn2 : n * 65536 ≤ (m.buf.drop (65536 * k)).length := hlout ▸ rest_le (by omega) (Nat.le_of_eq hb.symm)
  obtain ⟨s', c1, c2, c3, c4, c5, c6⟩ := batch_calls hc.fsize (n := n) (a := ain + 65536 * k) (o := aout + 65536 * k) n1
    (inp := inp.drop (65536 * k)) (out := m.buf.drop (65536 * k)) (ilens := List.replicate 16 65536) (olens := sz.drop k)
    (rets := rets0 k) (by omega) hkn2 (fun i hi => by rw [List.getElem?_drop]; exact f3 i hi)
    (fun i hi => ⟨65536, by rw [List.getElem?_replicate, if_pos (by omega)], fun _ => ⟨(chunk_le hi hkn1).1, fun dst hd =>
      hc.total _ _ _ _ (length_chunkOf (data := inp.drop (65536 * k)) (i := i) (chunk_le hi hkn1).2) hd⟩⟩)
  have hsz : k ≤ sz.length := by omega
  have holl : s'.olens.length = num - k := by rw [c4, List.length_drop]; omega
  obtain ⟨l, e1, e2, e3⟩ := markLoop (rets := s'.rets) (k := k) (List.range n) (sz.take k ++ s'.olens) (by
    intro c hcm
    have := List.mem_range.1 hcm
    rw [List.length_append, List.length_take]
    omega)
  have hp1 : ptrAdd (some inp) (65536 * k) = .ok (some (inp.drop (65536 * k))) := ptrAdd_some (by omega)
  have hp2 : ptrAdd (some m.buf) (65536 * k) = .ok (some (m.buf.drop (65536 * k))) := ptrAdd_some (by omega)
  refine ⟨⟨m.buf.take (65536 * k) ++ s'.out, l, m.success⟩, ?_, rfl, ?_, ?_, ?_, ?_⟩
  · unfold compBatch
    simp only [sampleChunk, chunksPerBatch, hn, hp1, hp2, f1, BRes.access, bind, BRes.bind, Option.getD_some,
      Impl.trivial, c1, e1]
  · show (m.buf.take (65536 * k) ++ s'.out).length = _
    rw [List.length_append, List.length_take, c2]; omega
  · show l.length = num
    rw [e2, List.length_append, List.length_take]; omega
  · intro i h1 h2 h3
    obtain ⟨rc, nn, b, d1, d2, d3, d4⟩ := (c5 (i - k) (by omega)).2 65536
      (by rw [List.getElem?_replicate, if_pos (by omega)]) (by decide)
    have ea : ∀ x, x + 65536 * k + (i - k) * 65536 = x + 65536 * i := by intro x; omega
    rw [ea, ea] at d1
    have d1' : f (ain + 65536 * i) (aout + 65536 * i) (chunkOf (inp.drop (65536 * k)) (i - k))
      (chunkOf (m.buf.drop (65536 * k)) (i - k)) = .ret rc nn b := d1
    rw [chunkOf_drop, chunkOf_drop, show k + (i - k) = i by omega] at d1'
    refine ⟨rc, nn, b, d1', ?_, ?_⟩
    · show l[i]? = _
      rw [e3 i, getElem?_take_append _ _ hsz, if_neg (show ¬ i < k by omega), d3, d2]
      cases rc with
      | none => rw [if_pos rfl, if_neg (by rintro ⟨-, -, h⟩; cases h)]
      | some er =>
        have := hc.fails _ _ _ _ _ _ _ (length_chunkOf (chunk_le h3 hin).2) (length_chunkOf (chunk_le h3 (Nat.le_of_eq hb.symm)).2) d1'
        subst this
        rw [if_pos ⟨h1, List.mem_range.2 (by omega), rfl⟩, if_neg (by simp)]
    · show chunkOf (m.buf.take (65536 * k) ++ s'.out) i = b
      rw [(chunkOf_take_append m.buf s'.out (k := k) (i := i) (by omega)).2 h1, d4]
  · intro i hi
    have hnot : ¬ (k ≤ i ∧ i < k + n) := by omega
    refine ⟨?_, ?_⟩
    · show l[i]? = _
      rw [e3 i, if_neg (by rintro ⟨h1, h2, -⟩; have := List.mem_range.1 h2; omega), getElem?_take_append _ _ hsz]
      by_cases h : i < k
      · rw [if_pos h, f4 i hnot]
      · rw [if_neg h, (c6 (i - k) (by omega)).1, List.getElem?_drop, show k + (i - k) = i by omega, f4 i hnot]
    · show chunkOf (m.buf.take (65536 * k) ++ s'.out) i = _
      by_cases h : i < k
      · exact (chunkOf_take_append m.buf s'.out (k := k) (i := i) (by omega)).1 h
      · rw [(chunkOf_take_append m.buf s'.out (k := k) (i := i) (by omega)).2 (by omega), (c6 (i - k) (by omega)).2,
          chunkOf_drop, show k + (i - k) = i by omega]

/-- Several iterations of the compression loop. -/
theorem compLoop_spec {f g : ChunkFn} (hc : SampleContract f g) {req pref ain aout num : Nat} {inp : List Byte}
    {rets0 : Nat → List (Option Errno)} (hin : num * 65536 ≤ inp.length) (hr : ∀ k, (rets0 k).length = 16) :
    ∀ (ks : List Nat), (∀ k ∈ ks, k < num ∧ k % 16 = 0) → ks.Nodup → ∀ m : OmpMem, m.buf.length = num * 65536 →
    m.sizes.length = num →
    ∃ m', forEach (compBatch (Impl.trivial f g req pref) ain aout inp num rets0) ks m = .ok m' ∧
      m'.success = m.success ∧ m'.buf.length = num * 65536 ∧ m'.sizes.length = num ∧
      (∀ i < num, i / 16 * 16 ∈ ks → ∃ rc n b,
        f (ain + 65536 * i) (aout + 65536 * i) (chunkOf inp i) (chunkOf m.buf i) = .ret rc n b ∧
        m'.sizes[i]? = some (if rc = none then n else SIZE_MAX) ∧ chunkOf m'.buf i = b) ∧
      ∀ i, i / 16 * 16 ∉ ks → m'.sizes[i]? = m.sizes[i]? ∧ chunkOf m'.buf i = chunkOf m.buf i
  | [], _, _, m, hb, hs => ⟨m, rfl, rfl, hb, hs, fun i _ h => (by cases h), fun i _ => ⟨rfl, rfl⟩⟩
  | k :: ks, hks, hnd, m, hb, hs => by
    obtain ⟨k1, k2⟩ := hks k List.mem_cons_self
    obtain ⟨m1, a1, a2, a3, a4, a5, a6⟩ := compBatch_spec hc (req := req) (pref := pref) (ain := ain) (aout := aout) k1 hin
      (hr k) m hb hs
    obtain ⟨hnk, hnd'⟩ := List.nodup_cons.1 hnd
    obtain ⟨m2, b1, b2, b3, b4, b5, b6⟩ := compLoop_spec hc (req := req) (pref := pref) (ain := ain) (aout := aout) hin hr ks
      (fun k' hk' => hks k' (List.mem_cons_of_mem _ hk')) hnd' m1 a3 a4
    refine ⟨m2, ?_, b2.trans a2, b3, b4, fun i hi hmem => ?_, fun i hmem => ?_⟩
    · show BRes.bind (compBatch (Impl.trivial f g req pref) ain aout inp num rets0 k m) _ = _
      rw [a1]
      exact b1
    · rcases List.mem_cons.1 hmem with h | h
      · obtain ⟨rc, n, b, c1, c2, c3⟩ := a5 i (by omega) (by omega) hi
        obtain ⟨d1, d2⟩ := b6 i (by rw [h]; exact hnk)
        exact ⟨rc, n, b, c1, d1.trans c2, d2.trans c3⟩
      · obtain ⟨rc, n, b, c1, c2, c3⟩ := b5 i hi h
        have hne : i / 16 * 16 ≠ k := fun hx => hnk (hx ▸ h)
        rw [(a6 i (by omega)).2] at c1
        exact ⟨rc, n, b, c1, c2, c3⟩
    · have h1 : i / 16 * 16 ≠ k := fun hx => hmem (hx ▸ List.mem_cons_self)
      have h2 : i / 16 * 16 ∉ ks := fun hx => hmem (List.mem_cons_of_mem _ hx)
      obtain ⟨c1, c2⟩ := a6 i (by omega)
      obtain ⟨d1, d2⟩ := b6 i h2
      exact ⟨d1.trans c1, d2.trans c2⟩

/-- What the decompression loop finds for chunk `i` with the data `x`: it is marked as not
compressed, or `g` restores it. -/
def ChunkStored (g : ChunkFn) (out : List Byte) (csizes : List Nat) (i : Nat) (x : List Byte) : Prop :=
  csizes[i]? = some SIZE_MAX ∨ ∃ n, csizes[i]? = some n ∧ n ≤ 65536 ∧
    ∀ a o dst, dst.length = 65536 → g a o ((out.drop (i * 65536)).take n) dst = .ret none 65536 x

theorem writeBytes_chunk {m m' : List Byte} {i : Nat} {x : List Byte} (hx : x.length = 65536)
    (h : writeBytes m (65536 * i) x = some m') :
    m'.length = m.length ∧ chunkOf m' i = x ∧ ∀ i', i' ≠ i → chunkOf m' i' = chunkOf m i' := by
  obtain ⟨w1, w2⟩ := writeBytes_get h
  refine ⟨w1, ?_, fun i' hi' => chunkOf_ext fun j hj => ?_⟩
  · apply List.ext_getElem?
    intro j
    by_cases hj : j < 65536
    · rw [getElem?_chunkOf _ hj, w2, if_pos (by omega)]
      congr 1
      omega
    · unfold chunkOf
      rw [List.getElem?_take_eq_none (by omega), List.getElem?_eq_none (by omega)]
  · rw [w2, if_neg (by omega)]

theorem copyLoop {inp : List Byte} {csizes : List Nat} {k num : Nat} (hin : num * 65536 ≤ inp.length)
    (hcs : csizes.length = num) : ∀ (cs : List Nat) (m : OmpMem),
    (∀ c ∈ cs, k + c < num) → m.buf.length = inp.length → m.sizes.length = num →
    ∃ m', forEach (copyRaw inp csizes k) cs m = .ok m' ∧ m'.success = m.success ∧ m'.buf.length = inp.length ∧
      m'.sizes.length = num ∧
      ∀ i, ((k ≤ i ∧ i - k ∈ cs ∧ csizes[i]? = some SIZE_MAX) → m'.sizes[i]? = some 65536 ∧ chunkOf m'.buf i = chunkOf inp i) ∧
        (¬ (k ≤ i ∧ i - k ∈ cs ∧ csizes[i]? = some SIZE_MAX) → m'.sizes[i]? = m.sizes[i]? ∧
          chunkOf m'.buf i = chunkOf m.buf i)
  | [], m, _, hb, hs => ⟨m, rfl, rfl, hb, hs, fun i => ⟨(by rintro ⟨-, h, -⟩; cases h), fun _ => ⟨rfl, rfl⟩⟩⟩
  | c :: cs, m, h, hb, hs => by
    have h1 := h c List.mem_cons_self
    have hbody : ∃ m1, copyRaw inp csizes k c m = .ok m1 ∧ m1.success = m.success ∧ m1.buf.length = inp.length ∧
        m1.sizes.length = num ∧
        ((csizes[k + c]? = some SIZE_MAX → m1.sizes[k + c]? = some 65536 ∧ chunkOf m1.buf (k + c) = chunkOf inp (k + c)) ∧
        ∀ i, ¬ (i = k + c ∧ csizes[i]? = some SIZE_MAX) → m1.sizes[i]? = m.sizes[i]? ∧ chunkOf m1.buf i = chunkOf m.buf i) := by
      have hget : csizes[k + c]? = some (csizes[k + c]'(by omega)) := List.getElem?_eq_getElem (by omega)
      unfold copyRaw
      rw [hget]
      simp only [BRes.access, bind, BRes.bind]
      by_cases he : csizes[k + c]'(by omega) = SIZE_MAX
      · have hrd : readBytes inp (sampleChunk * (k + c)) sampleChunk = some (chunkOf inp (k + c)) := by
          unfold readBytes
          rw [if_pos (by unfold sampleChunk; omega)]
          unfold chunkOf sampleChunk
          rw [Nat.mul_comm]
        have hlc : (chunkOf inp (k + c)).length = 65536 := length_chunkOf (chunk_le h1 hin).2
        obtain ⟨b', hw⟩ := writeBytes_some (m := m.buf) (bs := chunkOf inp (k + c)) (i := 65536 * (k + c)) (by omega)
        obtain ⟨w1, w2, w3⟩ := writeBytes_chunk hlc hw
        have hw' : writeBytes m.buf (sampleChunk * (k + c)) (chunkOf inp (k + c)) = some b' := hw
        rw [if_pos he]
        simp only [hrd, hw']
        rw [if_pos (by omega)]
        refine ⟨_, rfl, rfl, by rw [w1, hb], by rw [List.length_set, hs], fun _ => ⟨?_, w2⟩, fun i hi => ?_⟩
        · show (m.sizes.set (c + k) sampleChunk)[k + c]? = _
          rw [Nat.add_comm c k, List.getElem?_set_self (by omega)]
          rfl
        · have hne : i ≠ k + c := fun hx => hi ⟨hx, by rw [hx, hget, he]⟩
          refine ⟨?_, w3 i hne⟩
          show (m.sizes.set (c + k) sampleChunk)[i]? = _
          rw [List.getElem?_set_ne (by omega)]
      · rw [if_neg he]
        exact ⟨m, rfl, rfl, hb, hs, fun hx => absurd (Option.some.inj hx) he, fun i _ => ⟨rfl, rfl⟩⟩
    obtain ⟨m1, a1, a2, a3, a4, a5, a6⟩ := hbody
    obtain ⟨m2, b1, b2, b3, b4, b5⟩ := copyLoop hin hcs cs m1 (fun c' hc' => h c' (List.mem_cons_of_mem _ hc')) a3 a4
    refine ⟨m2, ?_, b2.trans a2, b3, b4, fun i => ⟨fun hA => ?_, fun hA => ?_⟩⟩
    · show BRes.bind (copyRaw inp csizes k c m) _ = _
      rw [a1]
      exact b1
    · by_cases hB : k ≤ i ∧ i - k ∈ cs ∧ csizes[i]? = some SIZE_MAX
      · exact (b5 i).1 hB
      · obtain ⟨c1, c2⟩ := (b5 i).2 hB
        have hi : i = k + c := by
          rcases List.mem_cons.1 hA.2.1 with h2 | h2
          · omega
          · exact absurd ⟨hA.1, h2, hA.2.2⟩ hB
        subst hi
        obtain ⟨d1, d2⟩ := a5 hA.2.2
        exact ⟨c1.trans d1, c2.trans d2⟩
    · obtain ⟨c1, c2⟩ := (b5 i).2 (fun hB => hA ⟨hB.1, List.mem_cons_of_mem _ hB.2.1, hB.2.2⟩)
      obtain ⟨d1, d2⟩ := a6 i (fun hB => hA ⟨by omega, by rw [show i - k = c by omega]; exact List.mem_cons_self, hB.2⟩)
      exact ⟨c1.trans d1, c2.trans d2⟩

/-- One iteration of the decompression loop. -/
theorem decompBatch_spec {f g : ChunkFn} (hk : KeepsSize g) {req pref aout adec num k : Nat} {inp out : List Byte}
    {csizes : List Nat} {rets0 : Nat → List (Option Errno)} (hkn : k < num) (hin : inp.length = num * 65536)
    (hout : out.length = num * 65536) (hcs : csizes.length = num)
    (hst : ∀ i < num, ChunkStored g out csizes i (chunkOf inp i))
    (hr : (rets0 k).length = 16) (m : OmpMem) (hb : m.buf.length = num * 65536) (hs : m.sizes.length = num) :
    ∃ m', decompBatch (Impl.trivial f g req pref) aout adec inp out csizes num rets0 k m = .ok m' ∧ m'.success = m.success ∧
      m'.buf.length = num * 65536 ∧ m'.sizes.length = num ∧
      (∀ i, k ≤ i → i < k + 16 → i < num → m'.sizes[i]? = some 65536 ∧ chunkOf m'.buf i = chunkOf inp i) ∧
      ∀ i, ¬ (k ≤ i ∧ i < k + 16) → m'.sizes[i]? = m.sizes[i]? ∧ chunkOf m'.buf i = chunkOf m.buf i := by
  obtain ⟨n1, n2, n3⟩ := batchChunks_le num k
  generalize hn : batchChunks num k = n at n1 n2 n3
  obtain ⟨sz, f1, f2, f3, f4⟩ := fillSizes_get (sizes := m.sizes) (k := k) (n := n) (v := 65536) (by omega)
  have hlin : (out.drop (65536 * k)).length = out.length - 65536 * k := List.length_drop
  have hlout : (m.buf.drop (65536 * k)).length = m.buf.length - 65536 * k := List.length_drop
  have hkn1 : n * 65536 ≤ (out.drop (65536 * k)).length := hlin ▸ rest_le (by omega) (Nat.le_of_eq hout.symm)
  have hkn2 : n * 65536 ≤ (m.buf.drop (65536 * k)).length := hlout ▸ rest_le (by omega) (Nat.le_of_eq hb.symm)
  have hsrc : ∀ i il, ((out.drop (65536 * k)).drop (i * 65536)).take il = (out.drop ((k + i) * 65536)).take il := by
    intro i il
    rw [List.drop_drop, show 65536 * k + i * 65536 = (k + i) * 65536 by omega]
  obtain ⟨s', c1, c2, c3, c4, c5, c6⟩ := batch_calls hk (n := n) (a := aout + 65536 * k) (o := adec + 65536 * k) n1
    (inp := out.drop (65536 * k)) (out := m.buf.drop (65536 * k)) (ilens := csizes.drop k) (olens := sz.drop k)
    (rets := rets0 k) (by omega) hkn2 (fun i hi => by rw [List.getElem?_drop]; exact f3 i hi)
    (fun i hi => by
      rcases hst (k + i) (by omega) with h | ⟨nn, h1, h2, h3⟩
      · exact ⟨SIZE_MAX, by rw [List.getElem?_drop, h], fun hx => absurd rfl hx⟩
      · refine ⟨nn, by rw [List.getElem?_drop, h1], fun _ =>
          ⟨Nat.le_trans (Nat.add_le_add_left h2 _) (chunk_le hi hkn1).1, fun dst hd => ?_⟩⟩
        rw [hsrc]
        exact ⟨_, _, _, h3 _ _ _ hd⟩)
  have hsz : k ≤ sz.length := by omega
  have holl : s'.olens.length = num - k := by rw [c4, List.length_drop]; omega
  obtain ⟨m2, e1, e2, e3, e4, e5⟩ := copyLoop (inp := inp) (csizes := csizes) (k := k) (num := num) (Nat.le_of_eq hin.symm) hcs
    (List.range n)
    ⟨m.buf.take (65536 * k) ++ s'.out, sz.take k ++ s'.olens, m.success⟩
    (fun c hc => by have := List.mem_range.1 hc; omega)
    (by show (m.buf.take (65536 * k) ++ s'.out).length = _; rw [List.length_append, List.length_take, c2]; omega)
    (by show (sz.take k ++ s'.olens).length = _; rw [List.length_append, List.length_take]; omega)
  have hp1 : ptrAdd (some out) (65536 * k) = .ok (some (out.drop (65536 * k))) := ptrAdd_some (by omega)
  have hp2 : ptrAdd (some m.buf) (65536 * k) = .ok (some (m.buf.drop (65536 * k))) := ptrAdd_some (by omega)
  refine ⟨m2, ?_, e2, by omega, e4, ?_, ?_⟩
  · unfold decompBatch
    simp only [sampleChunk, hn, hp1, hp2, f1, BRes.access, bind, BRes.bind, Option.getD_some,
      Impl.trivial, c1, e1]
  · intro i h1 h2 h3
    rcases hst i h3 with h | ⟨nn, g1, g2, g3⟩
    · exact (e5 i).1 ⟨h1, List.mem_range.2 (by omega), h⟩
    · have hne : nn ≠ SIZE_MAX := by unfold SIZE_MAX; omega
      obtain ⟨d1, d2⟩ := (e5 i).2 (by rintro ⟨-, -, hx⟩; rw [g1] at hx; exact hne (Option.some.inj hx))
      obtain ⟨rc, n', b, q1, q2, q3, q4⟩ := (c5 (i - k) (by omega)).2 nn
        (by rw [List.getElem?_drop, show k + (i - k) = i by omega, g1]) hne
      rw [hsrc, show k + (i - k) = i by omega, g3 _ _ _ (length_chunkOf (chunk_le (show i - k < n by omega) hkn2).2)] at q1
      cases q1
      refine ⟨?_, ?_⟩
      · rw [d1]
        show (sz.take k ++ s'.olens)[i]? = _
        rw [getElem?_take_append _ _ hsz, if_neg (by omega), q3]
      · rw [d2]
        show chunkOf (m.buf.take (65536 * k) ++ s'.out) i = _
        rw [(chunkOf_take_append m.buf s'.out (k := k) (i := i) (by omega)).2 h1, q4]
  · intro i hi
    have hnot : ¬ (k ≤ i ∧ i < k + n) := by omega
    obtain ⟨d1, d2⟩ := (e5 i).2 (by rintro ⟨h1, h2, -⟩; have := List.mem_range.1 h2; omega)
    refine ⟨?_, ?_⟩
    · rw [d1]
      show (sz.take k ++ s'.olens)[i]? = _
      rw [getElem?_take_append _ _ hsz]
      by_cases h : i < k
      · rw [if_pos h, f4 i hnot]
      · rw [if_neg h, (c6 (i - k) (by omega)).1, List.getElem?_drop, show k + (i - k) = i by omega, f4 i hnot]
    · rw [d2]
      show chunkOf (m.buf.take (65536 * k) ++ s'.out) i = _
      by_cases h : i < k
      · exact (chunkOf_take_append m.buf s'.out (k := k) (i := i) (by omega)).1 h
      · rw [(chunkOf_take_append m.buf s'.out (k := k) (i := i) (by omega)).2 (by omega), (c6 (i - k) (by omega)).2,
          chunkOf_drop, show k + (i - k) = i by omega]

/-- Several iterations of the decompression loop. -/
theorem decompLoop_spec {f g : ChunkFn} (hk : KeepsSize g) {req pref aout adec num : Nat} {inp out : List Byte}
    {csizes : List Nat} {rets0 : Nat → List (Option Errno)} (hin : inp.length = num * 65536)
    (hout : out.length = num * 65536) (hcs : csizes.length = num)
    (hst : ∀ i < num, ChunkStored g out csizes i (chunkOf inp i)) (hr : ∀ k, (rets0 k).length = 16) :
    ∀ (ks : List Nat), (∀ k ∈ ks, k < num ∧ k % 16 = 0) → ks.Nodup → ∀ m : OmpMem, m.buf.length = num * 65536 →
    m.sizes.length = num →
    ∃ m', forEach (decompBatch (Impl.trivial f g req pref) aout adec inp out csizes num rets0) ks m = .ok m' ∧
      m'.success = m.success ∧ m'.buf.length = num * 65536 ∧ m'.sizes.length = num ∧
      (∀ i < num, i / 16 * 16 ∈ ks → m'.sizes[i]? = some 65536 ∧ chunkOf m'.buf i = chunkOf inp i) ∧
      ∀ i, i / 16 * 16 ∉ ks → m'.sizes[i]? = m.sizes[i]? ∧ chunkOf m'.buf i = chunkOf m.buf i
  | [], _, _, m, hb, hs => ⟨m, rfl, rfl, hb, hs, fun i _ h => (by cases h), fun i _ => ⟨rfl, rfl⟩⟩
  | k :: ks, hks, hnd, m, hb, hs => by
    obtain ⟨k1, k2⟩ := hks k List.mem_cons_self
    obtain ⟨m1, a1, a2, a3, a4, a5, a6⟩ := decompBatch_spec (f := f) hk (req := req) (pref := pref) (aout := aout)
      (adec := adec) k1 hin hout hcs hst (hr k) m hb hs
    obtain ⟨hnk, hnd'⟩ := List.nodup_cons.1 hnd
    obtain ⟨m2, b1, b2, b3, b4, b5, b6⟩ := decompLoop_spec (f := f) hk (req := req) (pref := pref) (aout := aout)
      (adec := adec) hin hout hcs hst hr ks (fun k' hk' => hks k' (List.mem_cons_of_mem _ hk')) hnd' m1 a3 a4
    refine ⟨m2, ?_, b2.trans a2, b3, b4, fun i hi hmem => ?_, fun i hmem => ?_⟩
    · show BRes.bind (decompBatch (Impl.trivial f g req pref) aout adec inp out csizes num rets0 k m) _ = _
      rw [a1]
      exact b1
    · rcases List.mem_cons.1 hmem with h | h
      · obtain ⟨c2, c3⟩ := a5 i (by omega) (by omega) hi
        obtain ⟨d1, d2⟩ := b6 i (by rw [h]; exact hnk)
        exact ⟨d1.trans c2, d2.trans c3⟩
      · exact b5 i hi h
    · have h1 : i / 16 * 16 ≠ k := fun hx => hmem (hx ▸ List.mem_cons_self)
      have h2 : i / 16 * 16 ∉ ks := fun hx => hmem (List.mem_cons_of_mem _ hx)
      obtain ⟨c1, c2⟩ := a6 i (by omega)
      obtain ⟨d1, d2⟩ := b6 i h2
      exact ⟨d1.trans c1, d2.trans c2⟩

theorem mem_batchStarts {num k : Nat} : k ∈ batchStarts num ↔ k < num ∧ k % 16 = 0 := by
  unfold batchStarts chunksPerBatch
  rw [List.mem_filter, List.mem_range]
  simp

theorem nodup_batchStarts (num : Nat) : (batchStarts num).Nodup := List.Pairwise.filter _ List.nodup_range

/-- `compress_benchmark_core` -/
theorem benchCore_spec {f g : ChunkFn} (hc : SampleContract f g) (ain aout adec pref : Nat) (inp : List Byte)
    (j : SampleJunk) (ord1 ord2 : List Nat) (num : Nat) (hin : inp.length = num * 65536)
    (hr1 : ∀ k, (j.rets1 k).length = 16) (hr2 : ∀ k, (j.rets2 k).length = 16) (hs1 : j.sizes1.length = num)
    (hs2 : j.sizes2.length = num) (hord1 : ord1.Perm (batchStarts num)) (hord2 : ord2.Perm (batchStarts num)) :
    ∃ sizes : List Nat, sizes.length = num ∧
      (∀ i < num, ∃ rc n b, f (ain + 65536 * i) (aout + 65536 * i) (chunkOf inp i) (List.replicate 65536 0) = .ret rc n b ∧
        sizes[i]? = some (if rc = none then n else 65536)) ∧
      benchCore (Impl.trivial f g 1 pref) ain aout adec inp j ord1 ord2 = .ok ⟨true, some sizes.sum, inp⟩ := by
  have hnum : inp.length / sampleChunk = num := by unfold sampleChunk; omega
  have hmem1 : ∀ k, k ∈ ord1 ↔ k < num ∧ k % 16 = 0 := fun k => hord1.mem_iff.trans mem_batchStarts
  have hmem2 : ∀ k, k ∈ ord2 ↔ k < num ∧ k % 16 = 0 := fun k => hord2.mem_iff.trans mem_batchStarts
  have hrep : ∀ i < num, chunkOf (List.replicate (num * sampleChunk) (0 : Byte)) i = List.replicate 65536 0 := by
    intro i hi
    unfold chunkOf sampleChunk
    rw [List.drop_replicate, List.take_replicate, Nat.min_eq_left (by omega)]
  obtain ⟨m, a1, a2, a3, a4, a5, -⟩ := compLoop_spec hc (req := 1) (pref := pref) (ain := ain) (aout := aout)
    (num := num) (inp := inp) (rets0 := j.rets1) (by omega) hr1 ord1 (fun k hk => (hmem1 k).1 hk)
    (hord1.nodup_iff.2 (nodup_batchStarts num)) ⟨List.replicate (num * sampleChunk) 0, j.sizes1, true⟩
    (by show (List.replicate (num * sampleChunk) (0 : Byte)).length = _; rw [List.length_replicate]; rfl) hs1
  have hall : ∀ i < num, ∃ rc n b, f (ain + 65536 * i) (aout + 65536 * i) (chunkOf inp i) (List.replicate 65536 0) = .ret rc n b ∧
        m.sizes[i]? = some (if rc = none then n else SIZE_MAX) ∧ chunkOf m.buf i = b := by
    intro i hi
    obtain ⟨rc, n, b, h1, h2, h3⟩ := a5 i hi ((hmem1 _).2 ⟨by omega, by omega⟩)
    rw [hrep i hi] at h1
    exact ⟨rc, n, b, h1, h2, h3⟩
  have hstored : ∀ i < num, ChunkStored g m.buf m.sizes i (chunkOf inp i) := by
    intro i hi
    obtain ⟨rc, n, b, h1, h2, h3⟩ := hall i hi
    cases rc with
    | some e => left; rw [h2, if_neg (by simp)]
    | none =>
      have hl := length_chunkOf (data := inp) (i := i) (by omega)
      have hle := hc.fits _ _ _ _ _ _ hl List.length_replicate h1
      obtain ⟨-, hres⟩ := hc.restores _ _ _ _ _ _ hl List.length_replicate h1
      refine .inr ⟨n, by rw [h2, if_pos rfl], hle, fun a o dst hd => ?_⟩
      have := hres a o dst hd
      rw [← h3] at this
      unfold chunkOf at this
      rw [List.take_take, Nat.min_eq_left hle] at this
      exact this
  obtain ⟨d, b1, b2, b3, b4, b5, -⟩ := decompLoop_spec (f := f) hc.gsize (req := 1) (pref := pref) (aout := aout) (adec := adec)
    (rets0 := j.rets2) hin a3 a4 hstored hr2 ord2 (fun k hk => (hmem2 k).1 hk)
    (hord2.nodup_iff.2 (nodup_batchStarts num)) ⟨List.replicate inp.length 0, j.sizes2, true⟩
    (by show (List.replicate inp.length (0 : Byte)).length = _; rw [List.length_replicate, hin]) hs2
  have hdbuf : d.buf = inp := eq_of_chunks b3 hin fun i hi => (b5 i hi ((hmem2 _).2 ⟨by omega, by omega⟩)).2
  have hdsz : d.sizes = List.replicate num 65536 := by
    apply List.ext_getElem?
    intro i
    by_cases hi : i < num
    · rw [(b5 i hi ((hmem2 _).2 ⟨by omega, by omega⟩)).1, List.getElem?_replicate, if_pos hi]
    · rw [List.getElem?_eq_none (by omega), List.getElem?_replicate, if_neg hi]
  refine ⟨m.sizes.map fun n => if n ≠ SIZE_MAX then n else sampleChunk, by rw [List.length_map, a4], fun i hi => ?_, ?_⟩
  · obtain ⟨rc, n, b, h1, h2, -⟩ := hall i hi
    refine ⟨rc, n, b, h1, ?_⟩
    rw [List.getElem?_map, h2]
    cases rc with
    | none =>
      have hle := hc.fits _ _ _ _ _ _ (length_chunkOf (data := inp) (i := i) (by omega)) List.length_replicate h1
      show some (if n ≠ SIZE_MAX then n else sampleChunk) = some n
      rw [if_pos (by unfold SIZE_MAX; omega)]
    | some e => rfl
  · unfold benchCore
    rw [if_neg (by rintro ⟨-, h⟩; exact h (Nat.mod_one _)), hnum]
    simp only [bind, BRes.bind, a1]
    rw [if_neg (by rw [a2]; exact Bool.noConfusion)]
    simp only [b1]
    rw [if_neg (by rw [b2]; exact Bool.noConfusion), if_neg]
    · rw [hdbuf]
    · rw [hdbuf, hdsz, List.sum_replicate_nat, hin]
      simp

end Lib842
