import Verif.Proofs.OmpLoops
import Verif.Proofs.Condense
import Verif.Props.Sample
import Mathlib.Tactic.Choose
/-!
# C91: the OpenMP loops of the sample program, with iterations that run at the same time

`OmpSafe`, `OmpReports`, `OmpRace`, `OmpFault`, `OmpDone` are in `Verif/SpecOmp.lean`.
-/

namespace Lib842.Props
open Lib842 Spec

/-! ## Batches of 16 chunks, for any implementation of the chunked functions -/

/-- C91: the compression loop.  `out t`, `olens t` and `ret t` are what the library function gives for batch `t` (its part of the output
buffer as it is at the start of the loop, all sizes 64 KiB).  Then, however the iterations are interleaved: nothing undefined, no data
race; at the end every part of the output is what the call for this batch gives, the size of a chunk is `SIZE_MAX` if the call succeeds
and reports `-ENOSPC` for the chunk, otherwise what the call gives; if calls fail, there is exactly one message. -/
theorem C91_compression (cc : ChunkedFn) (ain aout num : Nat) (inp buf : List Byte) (sizes : List Nat)
    (rets0 : Nat → List (Option Errno)) (hb : num * 65536 ≤ buf.length) (hz : num ≤ sizes.length)
    (out : Nat → List Byte) (olens : Nat → List Nat) (ret : Nat → LibRet)
    (hcall : ∀ t, 16 * t < num →
      ompCompCall cc ain aout inp num rets0 (16 * t) (slot buf (65536 * (16 * t)) (65536 * min (num - 16 * t) 16))
        (List.replicate (min (num - 16 * t) 16) 65536) = some (out t, olens t, ret t) ∧
      (out t).length = 65536 * min (num - 16 * t) 16 ∧ (olens t).length = min (num - 16 * t) 16 ∧
      ((ret t).err = none → min (num - 16 * t) 16 ≤ (ret t).rets.length)) :
    OmpSafe (ompLoop 16 num (ompCompBatch cc ain aout inp num rets0) buf sizes) ∧
    ∀ s, OmpReach (ompLoop 16 num (ompCompBatch cc ain aout inp num rets0) buf sizes) s → OmpDone s →
      s.buf.length = buf.length ∧ s.sizes.length = sizes.length ∧
      (∀ t, 16 * t < num → slot s.buf (65536 * (16 * t)) (65536 * min (num - 16 * t) 16) = out t ∧
        ∀ c < min (num - 16 * t) 16, s.sizes[16 * t + c]? =
          if (ret t).err = none ∧ (ret t).rets[c]? = some (some .ENOSPC) then some SIZE_MAX else (olens t)[c]?) ∧
      OmpReports ((num + 15) / 16) (fun t => (ret t).err) s := by
  have hmin : ∀ k, batchChunks num k = min (num - k) 16 := by intro k; unfold batchChunks chunksPerBatch; split <;> omega
  have hL := batchLayout_ok hb hz
  obtain ⟨h1, h2⟩ := omp_loop (L := batchLayout num) (step := 16) (num := num) (e := fun t => (ret t).err) (y := out)
    (w := fun t => if (ret t).err = none then markAll (ret t).rets (List.range (batchChunks num (16 * t))) (olens t) else olens t)
    (body := ompCompBatch cc ain aout inp num rets0) (b₀ := buf) (z₀ := sizes) hL (fun t => batchLayout_T) (fun t ht => by
      obtain ⟨c1, c2, c3, c4⟩ := hcall t (batchLayout_T.1 ht)
      rw [← hmin] at c1 c2 c3 c4
      exact ompCompBatch_does (length_slot (hL.buf t ht)) (length_slot (hL.sizes t ht)) c1 c2 c3 c4)
  refine ⟨h1, fun s hs hd => ?_⟩
  obtain ⟨a1, a2, a3, a4, -⟩ := h2 s hs hd
  refine ⟨a1, a2, fun t ht => ?_, a4⟩
  obtain ⟨b1, b2⟩ := a3 t (batchLayout_T.2 ht)
  have b1' : slot s.buf (65536 * (16 * t)) (65536 * batchChunks num (16 * t)) = out t := b1
  have b2' : slot s.sizes (16 * t) (batchChunks num (16 * t)) =
    if (ret t).err = none then markAll (ret t).rets (List.range (batchChunks num (16 * t))) (olens t) else olens t := b2
  refine ⟨by rw [← hmin]; exact b1', fun c hc => ?_⟩
  obtain ⟨-, -, hl, -⟩ := hcall t ht
  rw [← hmin] at hc hl
  have := congrArg (fun l => l[c]?) b2'
  simp only [getElem?_slot, if_pos hc] at this
  rw [this]
  by_cases he : (ret t).err = none
  · rw [if_pos he, (markAll_get _ _).2]
    by_cases hr : (ret t).rets[c]? = some (some .ENOSPC)
    · rw [if_pos ⟨List.mem_range.2 hc, by omega, hr⟩, if_pos ⟨he, hr⟩]
    · rw [if_neg (fun h => hr h.2.2), if_neg (fun h => hr h.2)]
  · rw [if_neg he, if_neg (fun h => he h.1)]

/-- C91: the decompression loop, in the same way: a chunk that is marked `SIZE_MAX` is copied from the input, for the other chunks the output is what
the call for the batch gives. -/
theorem C91_decompression (cd : ChunkedFn) (aout adec num : Nat) (inp cmp buf : List Byte) (csizes sizes : List Nat)
    (rets0 : Nat → List (Option Errno)) (hin : num * 65536 ≤ inp.length) (hcs : csizes.length = num)
    (hb : num * 65536 ≤ buf.length) (hz : num ≤ sizes.length)
    (out : Nat → List Byte) (olens : Nat → List Nat) (ret : Nat → LibRet)
    (hcall : ∀ t, 16 * t < num →
      ompDecompCall cd aout adec cmp csizes num rets0 (16 * t) (slot buf (65536 * (16 * t)) (65536 * min (num - 16 * t) 16))
        (List.replicate (min (num - 16 * t) 16) 65536) = some (out t, olens t, ret t) ∧
      (out t).length = 65536 * min (num - 16 * t) 16 ∧ (olens t).length = min (num - 16 * t) 16) :
    OmpSafe (ompLoop 16 num (ompDecompBatch cd aout adec inp cmp csizes num rets0) buf sizes) ∧
    ∀ s, OmpReach (ompLoop 16 num (ompDecompBatch cd aout adec inp cmp csizes num rets0) buf sizes) s → OmpDone s →
      s.buf.length = buf.length ∧ s.sizes.length = sizes.length ∧
      (∀ t, 16 * t < num → ∀ c < min (num - 16 * t) 16,
        (csizes[16 * t + c]? = some SIZE_MAX → chunkOf s.buf (16 * t + c) = chunkOf inp (16 * t + c) ∧ s.sizes[16 * t + c]? = some 65536) ∧
        (csizes[16 * t + c]? ≠ some SIZE_MAX → chunkOf s.buf (16 * t + c) = chunkOf (out t) c ∧ s.sizes[16 * t + c]? = (olens t)[c]?)) ∧
      OmpReports ((num + 15) / 16) (fun t => (ret t).err) s := by
  have hmin : ∀ k, batchChunks num k = min (num - k) 16 := by intro k; unfold batchChunks chunksPerBatch; split <;> omega
  have hL := batchLayout_ok hb hz
  obtain ⟨h1, h2⟩ := omp_loop (L := batchLayout num) (step := 16) (num := num) (e := fun t => (ret t).err)
    (y := fun t => (copyAll inp csizes (16 * t) (List.range (batchChunks num (16 * t))) (out t, olens t)).1)
    (w := fun t => (copyAll inp csizes (16 * t) (List.range (batchChunks num (16 * t))) (out t, olens t)).2)
    (body := ompDecompBatch cd aout adec inp cmp csizes num rets0) (b₀ := buf) (z₀ := sizes) hL (fun t => batchLayout_T) (fun t ht => by
      obtain ⟨c1, c2, c3⟩ := hcall t (batchLayout_T.1 ht)
      rw [← hmin] at c1 c2 c3
      exact ompDecompBatch_does (batchLayout_T.1 ht) hin hcs (length_slot (hL.buf t ht)) (length_slot (hL.sizes t ht)) c1 c2 c3)
  refine ⟨h1, fun s hs hd => ?_⟩
  obtain ⟨a1, a2, a3, a4, -⟩ := h2 s hs hd
  refine ⟨a1, a2, fun t ht c hc => ?_, a4⟩
  obtain ⟨b1, b2⟩ := a3 t (batchLayout_T.2 ht)
  obtain ⟨-, hlo, hl⟩ := hcall t ht
  rw [← hmin] at hc hl hlo
  have hn := batchChunks_le num (16 * t)
  obtain ⟨-, -, g3⟩ := copyAll_get (inp := inp) (csizes := csizes) (k := 16 * t) (List.range (batchChunks num (16 * t))) (out t) (olens t)
    (fun c hc => by have := List.mem_range.1 hc; omega)
  have b1' : slot s.buf (65536 * (16 * t)) (65536 * batchChunks num (16 * t)) =
    (copyAll inp csizes (16 * t) (List.range (batchChunks num (16 * t))) (out t, olens t)).1 := b1
  have b2' : slot s.sizes (16 * t) (batchChunks num (16 * t)) =
    (copyAll inp csizes (16 * t) (List.range (batchChunks num (16 * t))) (out t, olens t)).2 := b2
  clear b1 b2 a3
  generalize copyAll inp csizes (16 * t) (List.range (batchChunks num (16 * t))) (out t, olens t) = m at b1' b2' g3
  have e1 : chunkOf s.buf (16 * t + c) = chunkOf m.1 c := by
    rw [← b1', chunkOf_slot hc]
  have e2 : s.sizes[16 * t + c]? = m.2[c]? := by
    rw [← b2', getElem?_slot, if_pos hc]
  rw [e1, e2]
  refine ⟨fun hm => (g3 c).1 ⟨List.mem_range.2 hc, hm⟩, fun hm => (g3 c).2 fun h => hm h.2⟩

/-! ## The software implementations -/

theorem min_batch (num k : Nat) : batchChunks num k = min (num - k) 16 := by unfold batchChunks chunksPerBatch; split <;> omega

/-- What the trivial chunked compressor gives for the batch from chunk `k` on -/
theorem trivial_compCall {f g : ChunkFn} (hc : SampleContract f g) {ain aout num k : Nat} {inp buf : List Byte}
    {rets0 : Nat → List (Option Errno)} (hk : k < num) (hin : num * 65536 ≤ inp.length) (hb : num * 65536 ≤ buf.length)
    (hr : (rets0 k).length = 16) :
    ∃ o l r, ompCompCall (trivialChunked f) ain aout inp num rets0 k (slot buf (65536 * k) (65536 * min (num - k) 16))
        (List.replicate (min (num - k) 16) 65536) = some (o, l, r) ∧
      o.length = 65536 * min (num - k) 16 ∧ l.length = min (num - k) 16 ∧ r.err = none ∧ min (num - k) 16 ≤ r.rets.length ∧
      ∀ c < min (num - k) 16, ∃ rc n b, f (ain + 65536 * (k + c)) (aout + 65536 * (k + c)) (chunkOf inp (k + c)) (chunkOf buf (k + c)) =
        .ret rc n b ∧ r.rets[c]? = some rc ∧ l[c]? = some n ∧ chunkOf o c = b := by
  rw [← min_batch]
  obtain ⟨n1, n2, n3⟩ := batchChunks_le num k
  unfold ompCompCall
  rw [if_pos (by unfold sampleChunk; omega)]
  generalize hn : batchChunks num k = n at n1 n2 n3
  have hkn : (k + n) * 65536 ≤ num * 65536 := Nat.mul_le_mul_right _ (by omega)
  have hlin : (inp.drop (sampleChunk * k)).length = inp.length - 65536 * k := List.length_drop
  have hlout : (slot buf (65536 * k) (65536 * n)).length = 65536 * n := length_slot (by omega)
  have hkn1 : n * 65536 ≤ (inp.drop (sampleChunk * k)).length := hlin ▸ rest_le (by omega) hin
  obtain ⟨s', c1, c2, c3, c4, c5, -⟩ := batch_calls hc.fsize (n := n) (a := ain + sampleChunk * k) (o := aout + sampleChunk * k) n1
    (inp := inp.drop (sampleChunk * k)) (out := slot buf (65536 * k) (65536 * n)) (ilens := List.replicate chunksPerBatch sampleChunk)
    (olens := List.replicate n 65536) (rets := rets0 k) (by omega) (Nat.le_of_eq ((Nat.mul_comm _ _).trans hlout.symm))
    (fun i hi => by rw [List.getElem?_replicate, if_pos hi])
    (fun i hi => ⟨65536, by rw [List.getElem?_replicate, if_pos (by unfold chunksPerBatch; omega)]; rfl, fun _ =>
      ⟨(chunk_le hi hkn1).1, fun dst hd =>
        hc.total _ _ _ _ (length_chunkOf (data := inp.drop (sampleChunk * k)) (i := i) (chunk_le hi hkn1).2) hd⟩⟩)
  refine ⟨s'.out, s'.olens, ⟨none, s'.rets⟩, ?_, by omega, by rw [c4, List.length_replicate], rfl, by show n ≤ s'.rets.length; omega,
    fun c hc' => ?_⟩
  · show chunkedResult (trivialChunked f _ _ n 65536 65536 _ _ _) = _
    rw [c1]
    rfl
  · obtain ⟨rc, nn, b, d1, d2, d3, d4⟩ := (c5 c hc').2 65536
      (by rw [List.getElem?_replicate, if_pos (by unfold chunksPerBatch; omega)]; rfl) (by decide)
    refine ⟨rc, nn, b, ?_, d2, d3, d4⟩
    have ea : ∀ x, x + sampleChunk * k + c * 65536 = x + 65536 * (k + c) := by intro x; unfold sampleChunk; omega
    rw [ea, ea, chunkOf_slot hc'] at d1
    have d1' : f (ain + 65536 * (k + c)) (aout + 65536 * (k + c)) (chunkOf (inp.drop (65536 * k)) c) (chunkOf buf (k + c)) =
      .ret rc nn b := d1
    rw [chunkOf_drop] at d1'
    exact d1'

/-- C91: the compression loop with the software implementations (`C61_contracts`): every chunk is compressed as by a call of its own,
and there is no message. -/
theorem C91_compression_trivial {f g : ChunkFn} (hc : SampleContract f g) (ain aout num : Nat) (inp buf : List Byte) (sizes : List Nat)
    (rets0 : Nat → List (Option Errno)) (hin : num * 65536 ≤ inp.length) (hb : num * 65536 ≤ buf.length) (hz : num ≤ sizes.length)
    (hr : ∀ k, (rets0 k).length = 16) :
    OmpSafe (ompLoop 16 num (ompCompBatch (trivialChunked f) ain aout inp num rets0) buf sizes) ∧
    ∀ s, OmpReach (ompLoop 16 num (ompCompBatch (trivialChunked f) ain aout inp num rets0) buf sizes) s → OmpDone s →
      s.buf.length = buf.length ∧ s.sizes.length = sizes.length ∧ s.success = true ∧ s.msgs = [] ∧
      ∀ i < num, ∃ rc n b, f (ain + 65536 * i) (aout + 65536 * i) (chunkOf inp i) (chunkOf buf i) = .ret rc n b ∧
        s.sizes[i]? = some (if rc = none then n else SIZE_MAX) ∧ chunkOf s.buf i = b := by
  have hex : ∀ t, ∃ o l r, 16 * t < num → ompCompCall (trivialChunked f) ain aout inp num rets0 (16 * t)
        (slot buf (65536 * (16 * t)) (65536 * min (num - 16 * t) 16)) (List.replicate (min (num - 16 * t) 16) 65536) = some (o, l, r) ∧
      o.length = 65536 * min (num - 16 * t) 16 ∧ l.length = min (num - 16 * t) 16 ∧ r.err = none ∧ min (num - 16 * t) 16 ≤ r.rets.length ∧
      ∀ c < min (num - 16 * t) 16, ∃ rc n b, f (ain + 65536 * (16 * t + c)) (aout + 65536 * (16 * t + c)) (chunkOf inp (16 * t + c))
        (chunkOf buf (16 * t + c)) = .ret rc n b ∧ r.rets[c]? = some rc ∧ l[c]? = some n ∧ chunkOf o c = b := by
    intro t
    by_cases ht : 16 * t < num
    · obtain ⟨o, l, r, h⟩ := trivial_compCall hc (ain := ain) (aout := aout) (inp := inp) (buf := buf) ht hin hb (hr _)
      exact ⟨o, l, r, fun _ => h⟩
    · exact ⟨[], [], ⟨none, []⟩, fun h => absurd h ht⟩
  choose out olens ret hcall using hex
  obtain ⟨h1, h2⟩ := C91_compression (trivialChunked f) ain aout num inp buf sizes rets0 hb hz out olens ret
    (fun t ht => ⟨(hcall t ht).1, (hcall t ht).2.1, (hcall t ht).2.2.1, fun _ => (hcall t ht).2.2.2.2.1⟩)
  refine ⟨h1, fun s hs hd => ?_⟩
  obtain ⟨a1, a2, a3, a4⟩ := h2 s hs hd
  have hok : s.success = true ∧ s.msgs = [] := by
    rcases a4 with ⟨b1, b2, -⟩ | ⟨-, t, ht, x, hx, -⟩
    · exact ⟨b1, b2⟩
    · have hx : (ret t).err = some x := hx
      rw [(hcall t (by omega)).2.2.2.1] at hx
      cases hx
  refine ⟨a1, a2, hok.1, hok.2, fun i hi => ?_⟩
  have hti : 16 * (i / 16) + i % 16 = i := by omega
  have hci : i % 16 < min (num - 16 * (i / 16)) 16 := by omega
  obtain ⟨-, -, hl, he, -, hf⟩ := hcall (i / 16) (by omega)
  obtain ⟨rc, n, b, e1, e2, e3, e4⟩ := hf (i % 16) hci
  obtain ⟨g1, g2⟩ := a3 (i / 16) (by omega)
  have g2 := g2 (i % 16) hci
  rw [hti] at e1 g2
  refine ⟨rc, n, b, e1, ?_, ?_⟩
  · rw [g2, e2, e3]
    cases rc with
    | none => rw [if_neg (by simp), if_pos rfl]
    | some er =>
      have := hc.fails _ _ _ _ _ _ _ (length_chunkOf (chunk_le hi hin).2) (length_chunkOf (chunk_le hi hb).2) e1
      subst this
      rw [if_pos ⟨he, rfl⟩, if_neg (by simp)]
  · rw [← e4, ← g1, chunkOf_slot hci, hti]

/-- What the trivial chunked decompressor gives for the batch from chunk `k` on -/
theorem trivial_decompCall {g : ChunkFn} (hg : KeepsSize g) {aout adec num k : Nat} {inp cmp buf : List Byte} {csizes : List Nat}
    {rets0 : Nat → List (Option Errno)} (hk : k < num) (hcmp : cmp.length = num * 65536) (hb : num * 65536 ≤ buf.length)
    (hst : ∀ i < num, ChunkStored g cmp csizes i (chunkOf inp i)) (hr : (rets0 k).length = 16) :
    ∃ o l r, ompDecompCall (trivialChunked g) aout adec cmp csizes num rets0 k (slot buf (65536 * k) (65536 * min (num - k) 16))
        (List.replicate (min (num - k) 16) 65536) = some (o, l, r) ∧
      o.length = 65536 * min (num - k) 16 ∧ l.length = min (num - k) 16 ∧ r.err = none ∧
      ∀ c < min (num - k) 16, csizes[k + c]? ≠ some SIZE_MAX → l[c]? = some 65536 ∧ chunkOf o c = chunkOf inp (k + c) := by
  rw [← min_batch]
  obtain ⟨n1, n2, n3⟩ := batchChunks_le num k
  unfold ompDecompCall
  rw [if_pos (by unfold sampleChunk; omega)]
  generalize hn : batchChunks num k = n at n1 n2 n3
  have hkn : (k + n) * 65536 ≤ num * 65536 := Nat.mul_le_mul_right _ (by omega)
  have hlin : (cmp.drop (sampleChunk * k)).length = cmp.length - 65536 * k := List.length_drop
  have hlout : (slot buf (65536 * k) (65536 * n)).length = 65536 * n := length_slot (by omega)
  have hkn1 : n * 65536 ≤ (cmp.drop (sampleChunk * k)).length := hlin ▸ rest_le (by omega) (Nat.le_of_eq hcmp.symm)
  have hsrc : ∀ i il, ((cmp.drop (sampleChunk * k)).drop (i * 65536)).take il = (cmp.drop ((k + i) * 65536)).take il := by
    intro i il
    rw [List.drop_drop, show sampleChunk * k + i * 65536 = (k + i) * 65536 by unfold sampleChunk; omega]
  obtain ⟨s', c1, c2, c3, c4, c5, -⟩ := batch_calls hg (n := n) (a := aout + sampleChunk * k) (o := adec + sampleChunk * k) n1
    (inp := cmp.drop (sampleChunk * k)) (out := slot buf (65536 * k) (65536 * n)) (ilens := csizes.drop k)
    (olens := List.replicate n 65536) (rets := rets0 k) (by omega) (Nat.le_of_eq ((Nat.mul_comm _ _).trans hlout.symm))
    (fun i hi => by rw [List.getElem?_replicate, if_pos hi])
    (fun i hi => by
      rcases hst (k + i) (by omega) with h | ⟨nn, h1, h2, h3⟩
      · exact ⟨SIZE_MAX, by rw [List.getElem?_drop, h], fun hx => absurd rfl hx⟩
      · refine ⟨nn, by rw [List.getElem?_drop, h1], fun _ =>
          ⟨Nat.le_trans (Nat.add_le_add_left h2 _) (chunk_le hi hkn1).1, fun dst hd => ?_⟩⟩
        rw [hsrc]
        exact ⟨_, _, _, h3 _ _ _ hd⟩)
  refine ⟨s'.out, s'.olens, ⟨none, s'.rets⟩, ?_, by omega, by rw [c4, List.length_replicate], rfl, fun c hc' hne => ?_⟩
  · show chunkedResult (trivialChunked g _ _ n 65536 65536 _ _ _) = _
    rw [c1]
    rfl
  · rcases hst (k + c) (by omega) with h | ⟨nn, g1, g2, g3⟩
    · exact absurd h hne
    · obtain ⟨rc, n', b, q1, q2, q3, q4⟩ := (c5 c hc').2 nn (by rw [List.getElem?_drop, g1]) (by unfold SIZE_MAX; omega)
      rw [hsrc, g3 _ _ _ (length_chunkOf (chunk_le hc' (Nat.le_of_eq ((Nat.mul_comm _ _).trans hlout.symm))).2)] at q1
      cases q1
      exact ⟨q3, q4⟩

/-- C91: the decompression loop with the software implementations: if every chunk is marked as not compressed or is stored so that the decompressor
restores it, every chunk is restored. -/
theorem C91_decompression_trivial {g : ChunkFn} (hg : KeepsSize g) (aout adec num : Nat) (inp cmp buf : List Byte)
    (csizes sizes : List Nat) (rets0 : Nat → List (Option Errno)) (hin : num * 65536 ≤ inp.length) (hcs : csizes.length = num)
    (hcmp : cmp.length = num * 65536) (hb : num * 65536 ≤ buf.length) (hz : num ≤ sizes.length)
    (hst : ∀ i < num, ChunkStored g cmp csizes i (chunkOf inp i)) (hr : ∀ k, (rets0 k).length = 16) :
    OmpSafe (ompLoop 16 num (ompDecompBatch (trivialChunked g) aout adec inp cmp csizes num rets0) buf sizes) ∧
    ∀ s, OmpReach (ompLoop 16 num (ompDecompBatch (trivialChunked g) aout adec inp cmp csizes num rets0) buf sizes) s → OmpDone s →
      s.buf.length = buf.length ∧ s.sizes.length = sizes.length ∧ s.success = true ∧ s.msgs = [] ∧
      ∀ i < num, s.sizes[i]? = some 65536 ∧ chunkOf s.buf i = chunkOf inp i := by
  have hex : ∀ t, ∃ o l r, 16 * t < num → ompDecompCall (trivialChunked g) aout adec cmp csizes num rets0 (16 * t)
        (slot buf (65536 * (16 * t)) (65536 * min (num - 16 * t) 16)) (List.replicate (min (num - 16 * t) 16) 65536) = some (o, l, r) ∧
      o.length = 65536 * min (num - 16 * t) 16 ∧ l.length = min (num - 16 * t) 16 ∧ r.err = none ∧
      ∀ c < min (num - 16 * t) 16, csizes[16 * t + c]? ≠ some SIZE_MAX → l[c]? = some 65536 ∧ chunkOf o c = chunkOf inp (16 * t + c) := by
    intro t
    by_cases ht : 16 * t < num
    · obtain ⟨o, l, r, h⟩ := trivial_decompCall hg (aout := aout) (adec := adec) ht hcmp hb hst (hr _)
      exact ⟨o, l, r, fun _ => h⟩
    · exact ⟨[], [], ⟨none, []⟩, fun h => absurd h ht⟩
  choose out olens ret hcall using hex
  obtain ⟨h1, h2⟩ := C91_decompression (trivialChunked g) aout adec num inp cmp buf csizes sizes rets0 hin hcs hb hz out olens ret
    (fun t ht => ⟨(hcall t ht).1, (hcall t ht).2.1, (hcall t ht).2.2.1⟩)
  refine ⟨h1, fun s hs hd => ?_⟩
  obtain ⟨a1, a2, a3, a4⟩ := h2 s hs hd
  have hok : s.success = true ∧ s.msgs = [] := by
    rcases a4 with ⟨b1, b2, -⟩ | ⟨-, t, ht, x, hx, -⟩
    · exact ⟨b1, b2⟩
    · have hx : (ret t).err = some x := hx
      rw [(hcall t (by omega)).2.2.2.1] at hx
      cases hx
  refine ⟨a1, a2, hok.1, hok.2, fun i hi => ?_⟩
  have hti : 16 * (i / 16) + i % 16 = i := by omega
  have hci : i % 16 < min (num - 16 * (i / 16)) 16 := by omega
  obtain ⟨-, -, -, -, hf⟩ := hcall (i / 16) (by omega)
  have hf := hf (i % 16) hci
  obtain ⟨g1, g2⟩ := a3 (i / 16) (by omega) (i % 16) hci
  rw [hti] at g1 g2 hf
  by_cases hm : csizes[i]? = some SIZE_MAX
  · exact ⟨(g1 hm).2, (g1 hm).1⟩
  · rw [(g2 hm).1, (g2 hm).2]
    exact hf hm

/-- C91: one iteration after the other, in any order, is as good as any interleaving: at the end of the compression loop the arrays and
the flag are those of the loop of `Verif.Model.Sample`. -/
theorem C91_sequential {f g : ChunkFn} (hc : SampleContract f g) (req pref ain aout num : Nat) (inp buf : List Byte) (sizes : List Nat)
    (rets0 : Nat → List (Option Errno)) (hin : num * 65536 ≤ inp.length) (hb : buf.length = num * 65536) (hz : sizes.length = num)
    (hr : ∀ k, (rets0 k).length = 16) (ord : List Nat) (hn : ord.Nodup) (hord : ∀ k, k ∈ ord ↔ k < num ∧ k % 16 = 0)
    (s : OmpSys) (hs : OmpReach (ompLoop 16 num (ompCompBatch (trivialChunked f) ain aout inp num rets0) buf sizes) s) (hd : OmpDone s) :
    forEach (compBatch (Impl.trivial f g req pref) ain aout inp num rets0) ord ⟨buf, sizes, true⟩ = .ok ⟨s.buf, s.sizes, s.success⟩ := by
  obtain ⟨-, h2⟩ := C91_compression_trivial hc ain aout num inp buf sizes rets0 hin (by omega) (by omega) hr
  obtain ⟨a1, a2, a3, -, a5⟩ := h2 s hs hd
  obtain ⟨m, b1, b2, b3, b4, b5, -⟩ := compLoop_spec hc (req := req) (pref := pref) (ain := ain) (aout := aout) hin hr ord
    (fun k hk => (hord k).1 hk) hn ⟨buf, sizes, true⟩ hb hz
  have hall : ∀ i < num, m.sizes[i]? = s.sizes[i]? ∧ chunkOf m.buf i = chunkOf s.buf i := by
    intro i hi
    obtain ⟨rc, n, b, e1, e2, e3⟩ := a5 i hi
    obtain ⟨rc', n', b', f1, f2, f3⟩ := b5 i hi ((hord _).2 ⟨by omega, by omega⟩)
    rw [e1] at f1
    cases f1
    exact ⟨f2.trans e2.symm, f3.trans e3.symm⟩
  have hbuf : m.buf = s.buf := eq_of_chunks b3 (a1.trans hb) fun i hi => (hall i hi).2
  have hsz : m.sizes = s.sizes := by
    apply List.ext_getElem?
    intro i
    by_cases hi : i < num
    · exact (hall i hi).1
    · rw [List.getElem?_eq_none (by omega), List.getElem?_eq_none (by omega)]
  rw [b1, ← hbuf, ← hsz, a3]
  have : m = ⟨m.buf, m.sizes, m.success⟩ := rfl
  rw [this, b2]

/-- C91: `compress_benchmark_core` with the software implementations (`C61_contracts`): whatever the two loops' interleavings, nothing is undefined, there
is no data race, the function can always go on to its end, and it returns `true` without a message; the decompressed data is the input, and the length is
what the sequential program reports. -/
theorem C91_benchmark {f g : ChunkFn} (hc : SampleContract f g) (ain aout adec pref : Nat) (inp : List Byte)
    (j : SampleJunk) (num : Nat) (hin : inp.length = num * 65536)
    (hr1 : ∀ k, (j.rets1 k).length = 16) (hr2 : ∀ k, (j.rets2 k).length = 16) (hs1 : j.sizes1.length = num)
    (hs2 : j.sizes2.length = num) :
    OmpSafe (ompLoop 16 num (ompCompBatch (trivialChunked f) ain aout inp num j.rets1) (List.replicate (num * 65536) 0) j.sizes1) ∧
    (∀ s, OmpReach (ompLoop 16 num (ompCompBatch (trivialChunked f) ain aout inp num j.rets1) (List.replicate (num * 65536) 0)
        j.sizes1) s → OmpDone s →
      OmpSafe (ompLoop 16 num (ompDecompBatch (trivialChunked g) aout adec inp s.buf s.sizes num j.rets2)
        (List.replicate inp.length 0) j.sizes2)) ∧
    (∃ r, OmpBench (Impl.trivial f g 1 pref) ain aout adec inp j r []) ∧
    ∀ r msgs, OmpBench (Impl.trivial f g 1 pref) ain aout adec inp j r msgs →
      msgs = [] ∧ r.ret = true ∧ r.decompressed = inp ∧
      ∀ ord1 ord2 : List Nat, ord1.Nodup → (∀ k, k ∈ ord1 ↔ k < num ∧ k % 16 = 0) → ord2.Nodup →
        (∀ k, k ∈ ord2 ↔ k < num ∧ k % 16 = 0) →
        benchCore (Impl.trivial f g 1 pref) ain aout adec inp j ord1 ord2 = .ok r := by
  have hnum : inp.length / sampleChunk = num := by unfold sampleChunk; omega
  have hrep : (List.replicate (num * 65536) (0 : Byte)).length = num * 65536 := List.length_replicate
  have hrep' : (List.replicate inp.length (0 : Byte)).length = num * 65536 := List.length_replicate.trans hin
  obtain ⟨h1, h2⟩ := C91_compression_trivial hc ain aout num inp (List.replicate (num * 65536) 0) j.sizes1 j.rets1 (Nat.le_of_eq hin.symm)
    (Nat.le_of_eq hrep.symm) (Nat.le_of_eq hs1.symm) hr1
  have hst : ∀ s, OmpReach (ompLoop 16 num (ompCompBatch (trivialChunked f) ain aout inp num j.rets1) (List.replicate (num * 65536) 0)
        j.sizes1) s → OmpDone s → s.buf.length = num * 65536 ∧ s.sizes.length = num ∧
        ∀ i < num, ChunkStored g s.buf s.sizes i (chunkOf inp i) := by
    intro s hs hd
    obtain ⟨a1, a2, a3, a4, a5⟩ := h2 s hs hd
    refine ⟨a1.trans hrep, a2.trans hs1, fun i hi => ?_⟩
    obtain ⟨rc, n, b, e1, e2, e3⟩ := a5 i hi
    have hl := length_chunkOf (data := inp) (i := i) (chunk_le hi (Nat.le_of_eq hin.symm)).2
    have hl' := length_chunkOf (data := List.replicate (num * 65536) (0 : Byte)) (i := i) (chunk_le hi (Nat.le_of_eq hrep.symm)).2
    cases rc with
    | some e => left; rw [e2, if_neg (by simp)]
    | none =>
      have hle := hc.fits _ _ _ _ _ _ hl hl' e1
      obtain ⟨-, hres⟩ := hc.restores _ _ _ _ _ _ hl hl' e1
      refine .inr ⟨n, by rw [e2, if_pos rfl], hle, fun a o dst hd => ?_⟩
      have := hres a o dst hd
      rw [← e3] at this
      unfold chunkOf at this
      rw [List.take_take, Nat.min_eq_left hle] at this
      exact this
  have hdec := fun s hs hd => C91_decompression_trivial hc.gsize aout adec num inp s.buf (List.replicate inp.length 0) s.sizes j.sizes2 j.rets2
    (Nat.le_of_eq hin.symm) (hst s hs hd).2.1 (hst s hs hd).1 (Nat.le_of_eq hrep'.symm) (Nat.le_of_eq hs2.symm) (hst s hs hd).2.2 hr2
  have hfin : ∀ s : OmpSys, OmpReach (ompLoop 16 num (ompCompBatch (trivialChunked f) ain aout inp num j.rets1)
        (List.replicate (num * 65536) 0) j.sizes1) s → OmpDone s → ∀ d, OmpReach (ompLoop 16 num (ompDecompBatch (trivialChunked g) aout adec inp s.buf s.sizes num j.rets2)
        (List.replicate inp.length 0) j.sizes2) d → OmpDone d → d.msgs = [] ∧
        benchFinish inp (condOlen s.sizes) ⟨d.buf, d.sizes, d.success⟩ = .ok ⟨true, some (condOlen s.sizes), inp⟩ := by
    intro s hs hd d hds hdd
    obtain ⟨b1, b2, b3, b4, b5⟩ := (hdec s hs hd).2 d hds hdd
    have hdbuf : d.buf = inp := eq_of_chunks (b1.trans hrep') hin fun i hi => (b5 i hi).2
    have hdsz : d.sizes = List.replicate num 65536 := by
      apply List.ext_getElem?
      intro i
      by_cases hi : i < num
      · rw [(b5 i hi).1, List.getElem?_replicate, if_pos hi]
      · rw [List.getElem?_eq_none (by omega), List.getElem?_replicate, if_neg hi]
    refine ⟨b4, ?_⟩
    unfold benchFinish
    rw [b3, hdbuf, hdsz, if_neg (by simp), if_neg (by simp [List.sum_replicate, hin])]
  refine ⟨h1, fun s hs hd => (hdec s hs hd).1, ?_, ?_⟩
  · obtain ⟨-, -, s, hs, hd⟩ := h1 _ .init
    obtain ⟨-, -, d, hds, hdd⟩ := (hdec s hs hd).1 _ .init
    obtain ⟨-, -, a3, a4, -⟩ := h2 s hs hd
    obtain ⟨g1, g2⟩ := hfin s hs hd d hds hdd
    have := OmpBench.decomp (impl := Impl.trivial f g 1 pref) (ain := ain) (aout := aout) (adec := adec) (inp := inp) (j := j)
      (s := s) (d := d) (Nat.mod_one _) (by rw [hnum]; exact hs) hd a3 (by rw [hnum]; exact hds) hdd g2
    rw [a4, g1] at this
    exact ⟨_, this⟩
  · intro r msgs h
    cases h with
    | align h => exact absurd (Nat.mod_one _) h
    | comp _ hs hd hf =>
      rw [hnum] at hs
      obtain ⟨-, -, a3, -⟩ := h2 _ hs hd
      rw [a3] at hf
      cases hf
    | @decomp s d r _ hs hd _ hds hdd hfinish =>
      rw [hnum] at hs hds
      obtain ⟨-, -, a3, a4, -⟩ := h2 s hs hd
      obtain ⟨g1, g2⟩ := hfin s hs hd d hds hdd
      rw [g2] at hfinish
      cases hfinish
      refine ⟨by rw [a4, g1]; rfl, rfl, rfl, fun ord1 ord2 hn1 ho1 hn2 ho2 => ?_⟩
      have hseq := C91_sequential hc 1 pref ain aout num inp _ _ _ (Nat.le_of_eq hin.symm) hrep hs1 hr1 ord1 hn1 ho1 s hs hd
      obtain ⟨b1, b2, b3⟩ := hst s hs hd
      obtain ⟨m, c1, c2, c3, c4, c5, -⟩ := decompLoop_spec (f := f) hc.gsize (req := 1) (pref := pref) (aout := aout) (adec := adec)
        (rets0 := j.rets2) hin b1 b2 b3 hr2 ord2 (fun k hk => (ho2 k).1 hk) hn2 ⟨List.replicate inp.length 0, j.sizes2, true⟩ hrep' hs2
      have hmbuf : m.buf = inp := eq_of_chunks c3 hin fun i hi => (c5 i hi ((ho2 _).2 ⟨by omega, by omega⟩)).2
      have hmsz : m.sizes = List.replicate num 65536 := by
        apply List.ext_getElem?
        intro i
        by_cases hi : i < num
        · rw [(c5 i hi ((ho2 _).2 ⟨by omega, by omega⟩)).1, List.getElem?_replicate, if_pos hi]
        · rw [List.getElem?_eq_none (by omega), List.getElem?_replicate, if_neg hi]
      unfold benchCore
      rw [if_neg (by rintro ⟨-, h⟩; exact h (Nat.mod_one _)), hnum]
      have hseq' : forEach (compBatch (Impl.trivial f g 1 pref) ain aout inp num j.rets1) ord1
        ⟨List.replicate (num * sampleChunk) 0, j.sizes1, true⟩ = .ok ⟨s.buf, s.sizes, s.success⟩ := hseq
      have c2 : m.success = true := c2
      simp only [hseq', bind, BRes.bind, a3, c1, c2, hmbuf, hmsz]
      rw [if_neg (by simp), if_neg (by simp), if_neg (by simp [List.sum_replicate, hin])]
      rfl

/-! ## Messages, for any implementation -/

theorem clean_fill {k : Nat} {next : OmpProg} (h : next.Clean) : ∀ cs : List Nat, (ompFill k cs next).Clean
  | [] => h
  | _ :: cs => clean_fill h cs

theorem clean_mark {k : Nat} {rets : List (Option Errno)} {next : OmpProg} (h : next.Clean) :
    ∀ cs : List Nat, (ompMark k rets cs next).Clean
  | [] => h
  | c :: cs => by
    have ih := clean_mark (k := k) (rets := rets) h cs
    show (match rets[c]? with
      | none => OmpProg.ub
      | some r => if r = some Errno.ENOSPC then .size (k + c) SIZE_MAX (ompMark k rets cs next) else ompMark k rets cs next).Clean
    split
    · trivial
    · split
      · exact ih
      · exact ih

theorem clean_copy {inp : List Byte} {csizes : List Nat} {k : Nat} {next : OmpProg} (h : next.Clean) :
    ∀ cs : List Nat, (ompCopy inp csizes k cs next).Clean
  | [] => h
  | c :: cs => by
    have ih := clean_copy (inp := inp) (csizes := csizes) (k := k) h cs
    show (match csizes[k + c]? with
      | none => OmpProg.ub
      | some n =>
        if n = SIZE_MAX then
          .call (sampleChunk * (k + c)) sampleChunk (k + c) 0
            (fun _ _ => (readBytes inp (sampleChunk * (k + c)) sampleChunk).map fun bs => (bs, [], ⟨none, []⟩))
            fun _ => .size (c + k) sampleChunk (ompCopy inp csizes k cs next)
        else ompCopy inp csizes k cs next).Clean
    split
    · trivial
    · split
      · exact fun _ => ih
      · exact ih

theorem clean_end (e : Option Errno) : (ompEnd e).Clean := by cases e <;> trivial

theorem clean_comp (cc : ChunkedFn) (ain aout : Nat) (inp : List Byte) (num : Nat) (rets0 : Nat → List (Option Errno)) (k : Nat) :
    (ompCompBatch cc ain aout inp num rets0 k).Clean := by
  refine clean_fill ?_ _
  intro r
  show (if r.err = none then ompMark k r.rets _ .done else ompEnd r.err).Clean
  split
  · exact clean_mark (next := .done) trivial _
  · exact clean_end _

theorem clean_decomp (cd : ChunkedFn) (aout adec : Nat) (inp out : List Byte) (csizes : List Nat) (num : Nat)
    (rets0 : Nat → List (Option Errno)) (k : Nat) : (ompDecompBatch cd aout adec inp out csizes num rets0 k).Clean := by
  refine clean_fill ?_ _
  intro r
  exact clean_copy (clean_end r.err) _

theorem flag_done {s : OmpSys} (h : OmpFlag s) (hd : OmpDone s) :
    (s.success = true ∧ s.msgs = []) ∨ (s.success = false ∧ s.msgs.length = 1) := by
  rcases h.flag with ⟨f1, f2, -⟩ | ⟨f1, ⟨⟨x, f2⟩, -⟩ | ⟨-, t, x, f2, -⟩⟩
  · exact .inl ⟨f1, f2⟩
  · exact .inr ⟨f1, by rw [f2]; rfl⟩
  · rw [hd t] at f2; cases f2

/-- C91: for any implementation whatsoever, whatever the interleaving: at most one message is written; if one is, the benchmark fails; if the benchmark
returns `true`, the decompressed data is the input. -/
theorem C91_one_message (impl : Impl) (ain aout adec : Nat) (inp : List Byte) (j : SampleJunk) (r : BenchRes) (msgs : List Errno)
    (h : OmpBench impl ain aout adec inp j r msgs) :
    msgs.length ≤ 1 ∧ (msgs ≠ [] → r.ret = false) ∧ (r.ret = true → r.decompressed = inp) := by
  cases h with
  | align => exact ⟨Nat.zero_le _, fun _ => rfl, fun h => (by cases h)⟩
  | comp _ hs hd hf =>
    have h1 := flag_done ((OmpFlag.start (clean_comp _ _ _ _ _ _)).reach hs) hd
    refine ⟨?_, fun _ => rfl, fun h => (by cases h)⟩
    rcases h1 with ⟨-, h1⟩ | ⟨-, h1⟩
    · rw [h1]; exact Nat.zero_le _
    · omega
  | @decomp s d r _ hs hd hsu hds hdd hfin =>
    have h1 := flag_done ((OmpFlag.start (clean_comp _ _ _ _ _ _)).reach hs) hd
    have h2 := flag_done ((OmpFlag.start (clean_decomp _ _ _ _ _ _ _ _)).reach hds) hdd
    have h1' : s.msgs = [] := by
      rcases h1 with ⟨-, h1⟩ | ⟨h1, -⟩
      · exact h1
      · rw [hsu] at h1; cases h1
    rw [h1', List.nil_append]
    unfold benchFinish at hfin
    rcases h2 with ⟨g1, g2⟩ | ⟨g1, g2⟩
    · refine ⟨by rw [g2]; exact Nat.zero_le _, fun hx => absurd g2 hx, fun hr => ?_⟩
      simp only [g1] at hfin
      rw [if_neg (by simp)] at hfin
      split at hfin
      · cases hfin; cases hr
      · rename_i hx
        cases hfin
        simp only [not_or, ne_eq, Decidable.not_not] at hx
        exact hx.2.symm
    · simp only [g1, if_true] at hfin
      cases hfin
      exact ⟨by omega, fun _ => rfl, fun h => (by cases h)⟩

/-! ## Single chunks -/

/-- The layout of the loops over single chunks -/
def oneLayout (num : Nat) : OmpLayout where
  T := num
  B t := 65536 * t
  LB _ := 65536
  Z t := t
  LZ _ := 1

theorem oneLayout_ok {num nb nz : Nat} (hb : num * 65536 ≤ nb) (hz : num ≤ nz) : (oneLayout num).Ok nb nz := by
  refine ⟨fun t ht => ?_, fun t ht => ?_, fun t ht u hu hne => ?_, fun t ht u hu hne => ?_⟩ <;>
  · simp only [oneLayout] at *
    omega

theorem chunk_slot (b : List Byte) (t : Nat) : slot b (65536 * t) 65536 = chunkOf b t := by
  rw [Nat.mul_comm]; rfl

theorem slot_all {α : Type} {l : List α} {n : Nat} (h : l.length = n) (k : Nat) : slot l (k - k) n = l := by
  unfold slot
  rw [Nat.sub_self, List.drop_zero, List.take_of_length_le (by omega)]

theorem splice_all {α : Type} {l xs : List α} (h : xs.length = l.length) (k : Nat) : splice l (k - k) xs = xs := by
  unfold splice
  rw [Nat.sub_self, List.take_zero, List.nil_append, List.drop_of_length_le (by omega), List.append_nil]

theorem single_of_length {z : List Nat} (h : z.length = 1) : ∃ v, z = [v] := List.length_eq_one_iff.1 h

/-- C91: the compression loop with `CHUNKS_PER_BATCH` = 1, for any compressor that returns for every chunk: every chunk is compressed as by a call alone, a
chunk with `-ENOSPC` is marked, and if there are other errors there is exactly one message, for one of them. -/
theorem C91_single_compression (f : ChunkFn) (ain aout num : Nat) (inp buf : List Byte) (sizes : List Nat)
    (hin : num * 65536 ≤ inp.length) (hb : num * 65536 ≤ buf.length) (hz : num ≤ sizes.length)
    (rc : Nat → Option Errno) (n : Nat → Nat) (b : Nat → List Byte)
    (hcall : ∀ k < num, f (ain + 65536 * k) (aout + 65536 * k) (chunkOf inp k) (chunkOf buf k) = .ret (rc k) (n k) (b k) ∧
      (b k).length = 65536) :
    OmpSafe (ompLoop 1 num (ompCompOne f ain aout inp) buf sizes) ∧
    ∀ s, OmpReach (ompLoop 1 num (ompCompOne f ain aout inp) buf sizes) s → OmpDone s →
      (∀ k < num, chunkOf s.buf k = b k ∧ s.sizes[k]? = some (if rc k = some .ENOSPC then SIZE_MAX else n k)) ∧
      OmpReports num (fun k => if rc k = some .ENOSPC then none else rc k) s := by
  have hL := oneLayout_ok hb hz
  obtain ⟨h1, h2⟩ := omp_loop (L := oneLayout num) (step := 1) (num := num)
    (e := fun k => if rc k = some .ENOSPC then none else rc k) (y := b)
    (w := fun k => [if rc k = some .ENOSPC then SIZE_MAX else n k])
    (body := ompCompOne f ain aout inp) (b₀ := buf) (z₀ := sizes) hL (fun t => by rw [Nat.one_mul]; exact Iff.rfl) (fun t ht => by
      obtain ⟨c1, c2⟩ := hcall t ht
      have hlb := length_slot (hL.buf t ht)
      have hlz := length_slot (hL.sizes t ht)
      obtain ⟨v, hv⟩ := single_of_length hlz
      have hcb : (chunkOf buf t).length = 65536 := length_chunkOf (chunk_le ht hb).2
      show (ompCompOne f ain aout inp (1 * t)).Does (65536 * t) t _ _ _ (slot buf (65536 * t) 65536) (slot sizes t 1)
      rw [Nat.one_mul, chunk_slot, show slot sizes t 1 = [v] from hv]
      refine does_fill [0] (fun c hc => by simp at hc; simp [hc]) ?_
      show (OmpProg.call _ _ _ _ _ _).Does _ _ _ _ _ _ [65536]
      refine ⟨by unfold sampleChunk; omega, by unfold sampleChunk; omega, Nat.le_refl _, by simp, b t, [n t], ⟨rc t, []⟩, ?_, c2, rfl, ?_⟩
      · have e1 : sampleChunk * t - 65536 * t = t - t := by unfold sampleChunk; omega
        rw [e1, show sampleChunk = 65536 from rfl, slot_all hcb, slot_all (α := Nat) (l := [65536]) (n := 1) rfl]
        have := readBytes_chunkOf (inp := inp) (i := t) (chunk_le ht hin).2
        unfold sampleChunk at this
        rw [this]
        show singleResult _ _ _ = _
        unfold singleResult
        rw [if_pos (by rw [hcb]), c1]
      · have e1 : sampleChunk * t - 65536 * t = t - t := by unfold sampleChunk; omega
        rw [e1, splice_all (c2.trans hcb.symm), splice_all (l := [65536]) (xs := [n t]) rfl]
        by_cases hr : rc t = some .ENOSPC
        · simp only [hr, if_true]
          refine ⟨Nat.le_refl _, by simp, rfl, rfl, ?_⟩
          exact splice_all (l := [n t]) (xs := [SIZE_MAX]) rfl t
        · simp only [hr, if_false]
          exact does_end)
  refine ⟨h1, fun s hs hd => ?_⟩
  obtain ⟨a1, a2, a3, a4, -⟩ := h2 s hs hd
  refine ⟨fun k hk => ?_, a4⟩
  obtain ⟨b1, b2⟩ := a3 k hk
  have b1' : slot s.buf (65536 * k) 65536 = b k := b1
  have b2' : slot s.sizes k 1 = [if rc k = some .ENOSPC then SIZE_MAX else n k] := b2
  rw [chunk_slot] at b1'
  refine ⟨b1', ?_⟩
  have := congrArg (fun l => l[0]?) b2'
  simp only [getElem?_slot] at this
  simpa using this

/-- C91: the decompression loop with `CHUNKS_PER_BATCH` = 1 (`PlacedChunk`: the chunk is marked as not compressed, or the decompressor restores it from the
bytes at its position): every chunk is restored, and there is no message. -/
theorem C91_single_decompression (g : ChunkFn) (acomp adec num : Nat) (inp comp buf : List Byte) (poss csizes sizes : List Nat)
    (hin : num * 65536 ≤ inp.length) (hb : num * 65536 ≤ buf.length) (hz : num ≤ sizes.length)
    (hst : ∀ i < num, PlacedChunk g comp poss csizes i (chunkOf inp i)) :
    OmpSafe (ompLoop 1 num (ompDecompOne g acomp adec inp comp poss csizes) buf sizes) ∧
    ∀ s, OmpReach (ompLoop 1 num (ompDecompOne g acomp adec inp comp poss csizes) buf sizes) s → OmpDone s →
      s.success = true ∧ s.msgs = [] ∧ ∀ k < num, chunkOf s.buf k = chunkOf inp k ∧ s.sizes[k]? = some 65536 := by
  have hL := oneLayout_ok hb hz
  obtain ⟨h1, h2⟩ := omp_loop (L := oneLayout num) (step := 1) (num := num) (e := fun _ => none) (y := fun k => chunkOf inp k)
    (w := fun k => [65536])
    (body := ompDecompOne g acomp adec inp comp poss csizes) (b₀ := buf) (z₀ := sizes) hL (fun t => by rw [Nat.one_mul]; exact Iff.rfl) (fun t ht => by
      obtain ⟨n, pos, p1, p2, p3, p4⟩ := hst t ht
      have hlz := length_slot (hL.sizes t ht)
      obtain ⟨v, hv⟩ := single_of_length hlz
      have hcb : (chunkOf buf t).length = 65536 := length_chunkOf (chunk_le ht hb).2
      have hci : (chunkOf inp t).length = 65536 := length_chunkOf (chunk_le ht hin).2
      have e1 : sampleChunk * t - 65536 * t = t - t := by unfold sampleChunk; omega
      show (ompDecompOne g acomp adec inp comp poss csizes (1 * t)).Does (65536 * t) t _ _ _ (slot buf (65536 * t) 65536) (slot sizes t 1)
      rw [Nat.one_mul, chunk_slot, show slot sizes t 1 = [v] from hv]
      unfold ompDecompOne
      simp only [p1, p2]
      refine does_fill [0] (fun c hc => by simp at hc; simp [hc]) ?_
      show OmpProg.Does _ _ _ _ _ _ _ [65536]
      by_cases hn : n = SIZE_MAX
      · rw [if_neg (by simpa using hn)]
        refine ⟨by unfold sampleChunk; omega, by unfold sampleChunk; omega, Nat.le_refl _, by simp, chunkOf inp t, [], ⟨none, []⟩, ?_,
          hci, rfl, ?_⟩
        · rw [readBytes_chunkOf (inp := inp) (i := t) (chunk_le ht hin).2]; rfl
        · rw [e1, splice_all (hci.trans hcb.symm), splice_nil]
          exact ⟨Nat.le_refl _, by simp, rfl, rfl, splice_all rfl _⟩
      · rw [if_pos hn]
        obtain ⟨q1, q2⟩ := p4 hn
        refine ⟨by unfold sampleChunk; omega, by unfold sampleChunk; omega, Nat.le_refl _, by simp, chunkOf inp t, [65536], ⟨none, []⟩, ?_,
          hci, rfl, ?_⟩
        · rw [e1, show sampleChunk = 65536 from rfl, slot_all hcb, slot_all (α := Nat) (l := [65536]) (n := 1) rfl, readBytes_ok q1]
          show singleResult _ _ _ = _
          unfold singleResult
          rw [if_pos (by rw [hcb]), q2 _ _ _ hcb]
        · rw [e1, splice_all (hci.trans hcb.symm), splice_all (l := [65536]) (xs := [65536]) rfl]
          exact ⟨rfl, rfl, rfl⟩)
  refine ⟨h1, fun s hs hd => ?_⟩
  obtain ⟨a1, a2, a3, a4, -⟩ := h2 s hs hd
  have hok : s.success = true ∧ s.msgs = [] := by
    rcases a4 with ⟨b1, b2, -⟩ | ⟨-, t, ht, x, hx, -⟩
    · exact ⟨b1, b2⟩
    · cases hx
  refine ⟨hok.1, hok.2, fun k hk => ?_⟩
  obtain ⟨b1, b2⟩ := a3 k hk
  have b1' : slot s.buf (65536 * k) 65536 = chunkOf inp k := b1
  have b2' : slot s.sizes k 1 = [65536] := b2
  rw [chunk_slot] at b1'
  refine ⟨b1', ?_⟩
  have := congrArg (fun l => l[0]?) b2'
  simp only [getElem?_slot] at this
  simpa using this

/-! ## Condensation -/

/-- C91: the loop that condenses the output, if all chunks are compressed: no data race, and every chunk ends up at the sum of the sizes before it. -/
theorem C91_condense (out cond : List Byte) (csizes sizes : List Nat) (num : Nat) (hl : csizes.length = num) (hnum : num * 65536 < 2 ^ 64)
    (hle : ∀ n ∈ csizes, n ≤ 65536) (hout : out.length = num * 65536) (hcond : cond.length = csizes.sum) :
    OmpSafe (ompLoop 1 num (ompCondense out (condPositions 0 csizes) csizes) cond sizes) ∧
    ∀ s, OmpReach (ompLoop 1 num (ompCondense out (condPositions 0 csizes) csizes) cond sizes) s → OmpDone s →
      s.buf.length = csizes.sum ∧
      ∀ c n, csizes[c]? = some n → (s.buf.drop (csizes.take c).sum).take n = (out.drop (65536 * c)).take n := by
  have hget : ∀ t < num, csizes[t]? = some (csizes.getD t 0) := by
    intro t ht
    rw [List.getD_eq_getElem?_getD, List.getElem?_eq_getElem (by omega)]
    rfl
  have hL : OmpLayout.Ok ⟨num, fun t => (csizes.take t).sum, fun t => csizes.getD t 0, fun _ => 0, fun _ => 0⟩ cond.length sizes.length := by
    refine ⟨fun t ht => ?_, fun t ht => Nat.zero_le _, fun t ht u hu hne => ?_, fun t ht u hu hne => .inl (Nat.le_refl _)⟩
    · rw [hcond]
      exact (positions hl hnum hle (hget t ht)).2
    · have q1 := take_sum_succ (hget t ht)
      have q2 := take_sum_succ (hget u hu)
      show (csizes.take t).sum + csizes.getD t 0 ≤ (csizes.take u).sum ∨ (csizes.take u).sum + csizes.getD u 0 ≤ (csizes.take t).sum
      rcases Nat.lt_or_ge t u with hlt | hge
      · have := take_sum_le csizes (show t + 1 ≤ u from hlt)
        left; omega
      · have := take_sum_le csizes (show u + 1 ≤ t by omega)
        right; omega
  have hlen : ∀ t < num, 65536 * t + csizes.getD t 0 ≤ out.length := by
    intro t ht
    have h1 := hle _ (List.mem_of_getElem? (hget t ht))
    have h2 := (chunk_le ht (Nat.le_of_eq hout.symm)).2
    omega
  obtain ⟨h1, h2⟩ := omp_loop (step := 1) (num := num) (e := fun _ => none) (y := fun t => slot out (65536 * t) (csizes.getD t 0))
    (w := fun _ => []) (body := ompCondense out (condPositions 0 csizes) csizes) (b₀ := cond) (z₀ := sizes) hL
    (fun t => by rw [Nat.one_mul]) (fun t ht => by
      have ht : t < num := ht
      have hpos := (positions hl hnum hle (hget t ht)).1
      have hlb := length_slot (hL.buf t ht)
      show (ompCondense out (condPositions 0 csizes) csizes (1 * t)).Does (csizes.take t).sum 0 _ _ _
        (slot cond (csizes.take t).sum (csizes.getD t 0)) (slot sizes 0 0)
      rw [Nat.one_mul]
      unfold ompCondense
      simp only [hpos, hget t ht]
      have hsl : (slot out (65536 * t) (csizes.getD t 0)).length = csizes.getD t 0 := length_slot (hlen t ht)
      refine ⟨Nat.le_refl _, by rw [hlb], Nat.le_refl _, by simp [slot], slot out (65536 * t) (csizes.getD t 0), [], ⟨none, []⟩, ?_,
        hsl, rfl, rfl, ?_, ?_⟩
      · rw [readBytes_ok (by unfold sampleChunk; exact hlen t ht)]; rfl
      · exact splice_all (hsl.trans hlb.symm) _
      · rw [splice_nil]; simp [slot])
  refine ⟨h1, fun s hs hd => ?_⟩
  obtain ⟨a1, a2, a3, -, -⟩ := h2 s hs hd
  refine ⟨a1.trans hcond, fun c n hn => ?_⟩
  · have hc : c < num := by
      rcases Nat.lt_or_ge c csizes.length with h | h
      · omega
      · rw [List.getElem?_eq_none h] at hn; cases hn
    have h := (a3 c hc).1
    have hgd : csizes.getD c 0 = n := by
      have := hget c hc
      rw [hn] at this
      exact (Option.some.inj this).symm
    simp only [hgd] at h
    exact h

/-- C91: if a chunk is marked as not compressed, the loop that condenses is undefined right at its start. -/
theorem C91_condense_raw (out cond : List Byte) (poss csizes sizes : List Nat) (num c : Nat) (hc : c < num)
    (hraw : csizes[c]? = some SIZE_MAX) (hout : out.length < SIZE_MAX) :
    OmpFault (ompLoop 1 num (ompCondense out poss csizes) cond sizes) := by
  have hth : (ompLoop 1 num (ompCondense out poss csizes) cond sizes).th c = ompCondense out poss csizes c := by
    show (if 1 * c < num then ompCondense out poss csizes (1 * c) else .done) = _
    rw [Nat.one_mul, if_pos hc]
  refine ⟨c, ?_⟩
  rw [hth]
  unfold ompCondense
  rw [hraw]
  cases poss[c]? with
  | none => exact .inl rfl
  | some pos =>
    refine .inr (.inr ⟨_, _, _, _, _, _, rfl, fun out' cells r he => ?_⟩)
    rw [show readBytes out (sampleChunk * c) SIZE_MAX = none from if_neg (by omega)] at he
    cases he

/-! ## The hypotheses are met -/

/-- 17 chunks of zeros: two iterations that run at the same time. -/
example : ∃ r, OmpBench (Impl.trivial (optC .little (fun _ => ojunk0) fun _ => junk0) (optD .little) 1 8) 64 128 192
    (List.replicate (17 * 65536) 0)
    ⟨fun _ => List.replicate 16 none, fun _ => List.replicate 16 none, List.replicate 17 3, List.replicate 17 4⟩ r [] ∧ r.ret = true := by
  obtain ⟨-, -, ⟨r, hr⟩, h⟩ := C91_benchmark (C61_contracts .little .little (fun _ => ojunk0) fun _ => junk0).2 64 128 192 8
    (List.replicate (17 * 65536) 0)
    ⟨fun _ => List.replicate 16 none, fun _ => List.replicate 16 none, List.replicate 17 3, List.replicate 17 4⟩ 17
    List.length_replicate (fun _ => rfl) (fun _ => rfl) rfl rfl
  exact ⟨r, hr, (h r [] hr).2.1⟩

/-- A library function that fails for all batches, 17 chunks: there is a final state, and every one has exactly one message. -/
example : ∃ s, OmpReach (ompLoop 16 17 (ompCompBatch (fun _ _ _ _ _ _ _ => M.fail .EINVAL) 64 128 (List.replicate (17 * 65536) 0) 17
      fun _ => List.replicate 16 none) (List.replicate (17 * 65536) 0) (List.replicate 17 3)) s ∧ OmpDone s ∧ s.success = false ∧
      s.msgs = [.EINVAL] := by
  have hl : (List.replicate (17 * 65536) (0 : Byte)).length = 17 * 65536 := List.length_replicate
  obtain ⟨h1, h2⟩ := C91_compression (fun _ _ _ _ _ _ _ => M.fail .EINVAL) 64 128 17 (List.replicate (17 * 65536) 0)
    (List.replicate (17 * 65536) 0) (List.replicate 17 3) (fun _ => List.replicate 16 none) (Nat.le_of_eq hl.symm)
    (Nat.le_of_eq List.length_replicate.symm)
    (fun t => slot (List.replicate (17 * 65536) 0) (65536 * (16 * t)) (65536 * min (17 - 16 * t) 16))
    (fun t => List.replicate (min (17 - 16 * t) 16) 65536) (fun _ => ⟨some .EINVAL, List.replicate 16 none⟩)
    (fun t ht => by
      refine ⟨?_, length_slot (by rw [hl]; omega), List.length_replicate, fun h => (by cases h)⟩
      unfold ompCompCall
      rw [if_pos (by rw [hl]; unfold sampleChunk; omega)]
      rfl)
  obtain ⟨-, -, s, hs, hd⟩ := h1 _ .init
  obtain ⟨-, -, -, h4⟩ := h2 s hs hd
  refine ⟨s, hs, hd, ?_⟩
  rcases h4 with ⟨-, -, h⟩ | ⟨h, t, -, x, hx, hm⟩
  · exact absurd (h 0 (by omega)) (by simp)
  · cases hx
    exact ⟨h, hm⟩

end Lib842.Props
