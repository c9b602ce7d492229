import Verif.Proofs.Condense
import Verif.Proofs.CondSafe
import Verif.Props.Sample
import Verif.Props.NewWords
import Verif.Props.Minimal
import Verif.Proofs.Expansion
/-!
# C84: the sample program with single chunks and with condensed output

`SampleContract f g` is in `Verif/Proofs/Sample.lean`; `C61_contracts` shows it for the software implementations.
-/

namespace Lib842.Props
open Lib842 Spec

/-- The arrays have the sizes the program allocates (`num` chunks), and every iteration of each loop runs exactly once, in
any order; the main loops advance by `step` chunks. -/
structure EnvOk (v : CondEnv) (num step : Nat) : Prop where
  rets1 : ∀ k, (v.junk.rets1 k).length = 16
  rets2 : ∀ k, (v.junk.rets2 k).length = 16
  sizes1 : v.junk.sizes1.length = num
  sizes2 : v.junk.sizes2.length = num
  cond0 : ∀ n, (v.cond0 n).length = n
  nodup1 : v.ord1.Nodup
  nodup2 : v.ord2.Nodup
  ord1 : ∀ k, k ∈ v.ord1 ↔ k < num ∧ k % step = 0
  ord2 : ∀ k, k ∈ v.ord2 ↔ k < num ∧ k % step = 0
  ordC : ∀ k, k ∈ v.ordC ↔ k < num

/-- What the compressor returns for chunk `i`, called as the sample does -/
def compressedAs (f : ChunkFn) (v : CondEnv) (inp : List Byte) (i : Nat) (rc : Option Errno) (n : Nat) (b : List Byte) : Prop :=
  f (v.ain + 65536 * i) (v.aout + 65536 * i) ((inp.drop (i * 65536)).take 65536) (List.replicate 65536 0) = .ret rc n b

/-! ## The compression loops -/

theorem chunk_zeros {num i : Nat} (hi : i < num) :
    chunkOf (List.replicate (num * sampleChunk) (0 : Byte)) i = List.replicate 65536 0 := by
  unfold chunkOf sampleChunk
  rw [List.drop_replicate, List.take_replicate, Nat.min_eq_left (by omega)]

/-- After a compression loop -/
def Compressed (f : ChunkFn) (v : CondEnv) (inp : List Byte) (num : Nat) (m : OmpMem) : Prop :=
  m.success = true ∧ m.buf.length = num * 65536 ∧ m.sizes.length = num ∧
    ∀ i < num, ∃ rc n b, compressedAs f v inp i rc n b ∧ m.sizes[i]? = some (if rc = none then n else SIZE_MAX) ∧
      chunkOf m.buf i = b

theorem comp_single {f g : ChunkFn} (hc : SampleContract f g) {pref num : Nat} {v : CondEnv} {inp : List Byte}
    (hin : inp.length = num * 65536) (hv : EnvOk v num 1) :
    ∃ m, forEach (compOne (Impl.trivial f g 1 pref) v.ain v.aout inp) v.ord1
      ⟨List.replicate (num * sampleChunk) 0, v.junk.sizes1, true⟩ = .ok m ∧ Compressed f v inp num m := by
  obtain ⟨m, a1, a2, a3, a4, a5, -⟩ := compOneLoop_spec hc (req := 1) (pref := pref) (ain := v.ain) (aout := v.aout)
    (num := num) (inp := inp) (by omega) v.ord1 (fun k hk => ((hv.ord1 k).1 hk).1) hv.nodup1
    ⟨List.replicate (num * sampleChunk) 0, v.junk.sizes1, true⟩
    (by show (List.replicate (num * sampleChunk) (0 : Byte)).length = _; rw [List.length_replicate]; rfl) hv.sizes1
  refine ⟨m, a1, a2, a3, a4, fun i hi => ?_⟩
  obtain ⟨rc, n, b, h1, h2, h3⟩ := a5 i ((hv.ord1 i).2 ⟨hi, Nat.mod_one _⟩)
  rw [chunk_zeros hi] at h1
  exact ⟨rc, n, b, h1, h2, h3⟩

theorem comp_batch {f g : ChunkFn} (hc : SampleContract f g) {pref num : Nat} {v : CondEnv} {inp : List Byte}
    (hin : inp.length = num * 65536) (hv : EnvOk v num 16) :
    ∃ m, forEach (compBatch (Impl.trivial f g 1 pref) v.ain v.aout inp num v.junk.rets1) v.ord1
      ⟨List.replicate (num * sampleChunk) 0, v.junk.sizes1, true⟩ = .ok m ∧ Compressed f v inp num m := by
  obtain ⟨m, a1, a2, a3, a4, a5, -⟩ := compLoop_spec hc (req := 1) (pref := pref) (ain := v.ain) (aout := v.aout)
    (num := num) (inp := inp) (rets0 := v.junk.rets1) (by omega) hv.rets1 v.ord1 (fun k hk => (hv.ord1 k).1 hk) hv.nodup1
    ⟨List.replicate (num * sampleChunk) 0, v.junk.sizes1, true⟩
    (by show (List.replicate (num * sampleChunk) (0 : Byte)).length = _; rw [List.length_replicate]; rfl) hv.sizes1
  refine ⟨m, a1, a2, a3, a4, fun i hi => ?_⟩
  obtain ⟨rc, n, b, h1, h2, h3⟩ := a5 i hi ((hv.ord1 _).2 ⟨by omega, by omega⟩)
  rw [chunk_zeros hi] at h1
  exact ⟨rc, n, b, h1, h2, h3⟩

theorem Compressed.olen {f g : ChunkFn} (hc : SampleContract f g) {v : CondEnv} {inp : List Byte} {num : Nat} {m : OmpMem}
    (hin : inp.length = num * 65536) (h : Compressed f v inp num m) :
    ∃ sizes : List Nat, sizes.length = num ∧ (∀ i < num, ∃ rc n b, compressedAs f v inp i rc n b ∧
      sizes[i]? = some (if rc = none then n else 65536)) ∧ condOlen m.sizes = sizes.sum := by
  obtain ⟨-, -, h3, h4⟩ := h
  refine ⟨m.sizes.map fun n => if n ≠ SIZE_MAX then n else sampleChunk, by rw [List.length_map, h3], fun i hi => ?_, rfl⟩
  obtain ⟨rc, n, b, h1, h2, -⟩ := h4 i hi
  refine ⟨rc, n, b, h1, ?_⟩
  rw [List.getElem?_map, h2]
  cases rc with
  | none =>
    have hle := hc.fits _ _ _ _ _ _ (length_chunkOf (data := inp) (i := i) (by omega)) List.length_replicate h1
    show some (if n ≠ SIZE_MAX then n else sampleChunk) = some n
    rw [if_pos (by unfold SIZE_MAX; omega)]
  | some e => rfl

/-- The last part of the program -/
theorem finish_ok {inp : List Byte} {num olen : Nat} {d : OmpMem} (hin : inp.length = num * 65536) (hs : d.success = true)
    (h1 : d.buf.length = num * 65536) (h2 : d.sizes.length = num)
    (h3 : ∀ i < num, d.sizes[i]? = some 65536 ∧ chunkOf d.buf i = chunkOf inp i) :
    benchFinish inp olen d = .ok ⟨true, some olen, inp⟩ := by
  have hdbuf : d.buf = inp := eq_of_chunks h1 hin fun i hi => (h3 i hi).2
  have hdsz : d.sizes = List.replicate num 65536 := by
    apply List.ext_getElem?
    intro i
    by_cases hi : i < num
    · rw [(h3 i hi).1, List.getElem?_replicate, if_pos hi]
    · rw [List.getElem?_eq_none (by omega), List.getElem?_replicate, if_neg hi]
  unfold benchFinish
  rw [if_neg (by rw [hs]; exact Bool.noConfusion), if_neg]
  · rw [hdbuf]
  · rw [hdbuf, hdsz, List.sum_replicate_nat, hin]
    simp

/-! ## Single chunks -/

/-- C84, `CHUNKS_PER_BATCH` = 1 without `CONDENSE`: on any buffer of whole chunks, for every order of the iterations and every
content of uninitialised memory, the benchmark returns `true`, the decompressed data is the input, and the length reported is
the sum of the compressed sizes, where a chunk that does not fit counts as 64 KiB. -/
theorem C84_single {f g : ChunkFn} (hc : SampleContract f g) (pref num : Nat) (v : CondEnv) (inp : List Byte)
    (hin : inp.length = num * 65536) (hv : EnvOk v num 1) :
    ∃ sizes : List Nat, sizes.length = num ∧
      (∀ i < num, ∃ rc n b, compressedAs f v inp i rc n b ∧ sizes[i]? = some (if rc = none then n else 65536)) ∧
      benchOne false (Impl.trivial f g 1 pref) v inp = .ok ⟨true, some sizes.sum, inp⟩ := by
  obtain ⟨m, e1, hm⟩ := comp_single hc (pref := pref) hin hv
  obtain ⟨sizes, z1, z2, z3⟩ := hm.olen hc hin
  have hnum : inp.length / sampleChunk = num := by unfold sampleChunk; omega
  obtain ⟨m1, m2, m3, m4⟩ := hm
  have hst : ∀ i < num, PlacedChunk g m.buf ((List.range num).map (sampleChunk * ·)) m.sizes i (chunkOf inp i) := by
    intro i hi
    obtain ⟨rc, n, b, h1, h2, h3⟩ := m4 i hi
    refine ⟨_, sampleChunk * i, h2, ?_, by rw [m2]; unfold sampleChunk; omega, fun hne => ?_⟩
    · rw [List.getElem?_map, List.getElem?_range hi]; rfl
    · cases rc with
      | some e => exact absurd (if_neg (by simp)) hne
      | none =>
        have hl := length_chunkOf (data := inp) (i := i) (by omega)
        have hle := hc.fits _ _ _ _ _ _ hl List.length_replicate h1
        obtain ⟨-, hres⟩ := hc.restores _ _ _ _ _ _ hl List.length_replicate h1
        rw [if_pos rfl]
        refine ⟨by rw [m2]; unfold sampleChunk; omega, fun a o dst hd => ?_⟩
        have := hres a o dst hd
        rw [← h3] at this
        unfold chunkOf at this
        rw [List.take_take, Nat.min_eq_left hle] at this
        rw [show sampleChunk * i = i * 65536 by unfold sampleChunk; omega]
        exact this
  obtain ⟨d, b1, b2, b3, b4, b5, -⟩ := decompOneLoop_spec (f := f) (g := g) (req := 1) (pref := pref) (acomp := v.aout)
    (adec := v.adec) hin hst v.ord2 (fun k hk => ((hv.ord2 k).1 hk).1) hv.nodup2
    ⟨List.replicate inp.length 0, v.junk.sizes2, true⟩
    (by show (List.replicate inp.length (0 : Byte)).length = _; rw [List.length_replicate, hin]) hv.sizes2
  refine ⟨sizes, z1, z2, ?_⟩
  unfold benchOne
  rw [hnum]
  simp only [bind, BRes.bind, e1, m1, Bool.true_eq_false, if_false, Bool.false_eq_true, b1]
  rw [z3]
  exact finish_ok hin b2 b3 b4 fun i hi => b5 i ((hv.ord2 i).2 ⟨hi, Nat.mod_one _⟩)

/-! ## Condensed output -/

theorem sizes_le {f g : ChunkFn} (hc : SampleContract f g) {v : CondEnv} {inp : List Byte} {num : Nat} {m : OmpMem}
    (hin : inp.length = num * 65536) (h : Compressed f v inp num m)
    (hcomp : ∀ i < num, ∃ n b, compressedAs f v inp i none n b) :
    condOlen m.sizes = m.sizes.sum ∧ (∀ n ∈ m.sizes, n ≤ 65536) ∧
      ∀ i < num, ∃ n b, compressedAs f v inp i none n b ∧ m.sizes[i]? = some n ∧ chunkOf m.buf i = b := by
  obtain ⟨-, -, h3, h4⟩ := h
  have hall : ∀ i < num, ∃ n b, compressedAs f v inp i none n b ∧ m.sizes[i]? = some n ∧ chunkOf m.buf i = b := by
    intro i hi
    obtain ⟨rc, n, b, h1, h2, h3⟩ := h4 i hi
    obtain ⟨n', b', h1'⟩ := hcomp i hi
    unfold compressedAs at h1 h1'
    rw [h1'] at h1
    cases h1
    rw [if_pos rfl] at h2
    exact ⟨_, _, h1', h2, h3⟩
  have hle : ∀ n ∈ m.sizes, n ≤ 65536 := by
    intro n hn
    obtain ⟨i, hi, rfl⟩ := List.getElem_of_mem hn
    obtain ⟨n, b, h1, h2, -⟩ := hall i (by omega)
    rw [List.getElem?_eq_getElem hi] at h2
    rw [Option.some.inj h2]
    exact hc.fits _ _ _ _ _ _ (length_chunkOf (data := inp) (i := i) (by omega)) List.length_replicate h1
  refine ⟨?_, hle, hall⟩
  unfold condOlen
  congr 1
  conv => rhs; rw [← List.map_id m.sizes]
  apply List.map_congr_left
  intro n hn
  have := hle n hn
  rw [if_pos (by unfold SIZE_MAX; omega)]
  rfl

/-- C84, `CHUNKS_PER_BATCH` = 1 with `CONDENSE`: if every chunk can be compressed to 64 KiB or less, the benchmark returns `true`, the
decompressed data is the input, and the length reported is the sum of the compressed sizes. Partial: missing are chunks
that cannot be compressed (`C84_raw_false`) and batches of 16 chunks (`C84_batch_false`). -/
theorem C84_condense_partial {f g : ChunkFn} (hc : SampleContract f g) (pref num : Nat) (v : CondEnv) (inp : List Byte)
    (hin : inp.length = num * 65536) (hlt : inp.length < 2 ^ 64) (hv : EnvOk v num 1)
    (hcomp : ∀ i < num, ∃ n b, compressedAs f v inp i none n b) :
    ∃ sizes : List Nat, sizes.length = num ∧ (∀ i < num, ∃ n b, compressedAs f v inp i none n b ∧ sizes[i]? = some n) ∧
      benchOne true (Impl.trivial f g 1 pref) v inp = .ok ⟨true, some sizes.sum, inp⟩ := by
  obtain ⟨m, e1, hm⟩ := comp_single hc (pref := pref) hin hv
  obtain ⟨z1, z2, z3⟩ := sizes_le hc hin hm hcomp
  have hnum : inp.length / sampleChunk = num := by unfold sampleChunk; omega
  obtain ⟨m1, m2, m3, -⟩ := hm
  obtain ⟨cond, c1, c2, c3⟩ := condLoop_spec (out := m.buf) (sizes := m.sizes) m3 (by omega) z2 m2 v.ordC
    (fun c hc => (hv.ordC c).1 hc) (v.cond0 m.sizes.sum) (hv.cond0 _)
  have hst : ∀ i < num, PlacedChunk g cond (condPositions 0 m.sizes) m.sizes i (chunkOf inp i) := by
    intro i hi
    obtain ⟨n, b, h1, h2, h3⟩ := z3 i hi
    obtain ⟨p1, p2⟩ := positions m3 (by omega) z2 h2
    refine ⟨n, _, h2, p1, by omega, fun _ => ⟨by omega, fun a o dst hd => ?_⟩⟩
    have hl := length_chunkOf (data := inp) (i := i) (by omega)
    have hle := hc.fits _ _ _ _ _ _ hl List.length_replicate h1
    obtain ⟨-, hres⟩ := hc.restores _ _ _ _ _ _ hl List.length_replicate h1
    have hsrc : (cond.drop (m.sizes.take i).sum).take n = b.take n := by
      rw [← h3]
      apply List.ext_getElem?
      intro j
      by_cases hj : j < n
      · rw [List.getElem?_take_of_lt hj, List.getElem?_take_of_lt hj, List.getElem?_drop, c3 i n h2 j hj,
          if_pos ((hv.ordC i).2 hi), getElem?_chunkOf _ (by omega), Nat.mul_comm]
      · rw [List.getElem?_take_eq_none (by omega), List.getElem?_take_eq_none (by omega)]
    rw [hsrc]
    exact hres a o dst hd
  obtain ⟨d, b1, b2, b3, b4, b5, -⟩ := decompOneLoop_spec (f := f) (g := g) (req := 1) (pref := pref) (acomp := v.acond)
    (adec := v.adec) hin hst v.ord2 (fun k hk => ((hv.ord2 k).1 hk).1) hv.nodup2
    ⟨List.replicate inp.length 0, v.junk.sizes2, true⟩
    (by show (List.replicate inp.length (0 : Byte)).length = _; rw [List.length_replicate, hin]) hv.sizes2
  refine ⟨m.sizes, m3, fun i hi => ?_, ?_⟩
  · obtain ⟨n, b, h1, h2, -⟩ := z3 i hi
    exact ⟨n, b, h1, h2⟩
  unfold benchOne
  rw [hnum]
  simp only [bind, BRes.bind, e1, m1, Bool.true_eq_false, if_false, if_true, z1, c1, b1]
  exact finish_ok hin b2 b3 b4 fun i hi => b5 i ((hv.ord2 i).2 ⟨hi, Nat.mod_one _⟩)

/-- C84 is false with `CONDENSE` for data that does not compress: if the compressor runs out of space for any chunk, the benchmark is
undefined, with single chunks and with batches: `memcpy` is told to copy `SIZE_MAX` bytes. -/
theorem C84_raw_false {f g : ChunkFn} (hc : SampleContract f g) (pref num : Nat) (v : CondEnv) (inp : List Byte)
    (hin : inp.length = num * 65536) (hlt : inp.length < 2 ^ 64 - 1) (i : Nat) (hi : i < num)
    (hraw : ∃ e n b, compressedAs f v inp i (some e) n b) :
    (EnvOk v num 1 → benchOne true (Impl.trivial f g 1 pref) v inp = .ub) ∧
    (EnvOk v num 16 → benchCondBatch (Impl.trivial f g 1 pref) v inp = .ub) := by
  have hnum : inp.length / sampleChunk = num := by unfold sampleChunk; omega
  have key : ∀ m, Compressed f v inp num m → ∀ cond, (∀ k, k ∈ v.ordC ↔ k < num) →
      forEach (condenseChunk m.buf (condPositions 0 m.sizes) m.sizes) v.ordC cond = .ub := by
    rintro m ⟨-, m2, m3, m4⟩ cond hord
    obtain ⟨rc, n, b, h1, h2, -⟩ := m4 i hi
    obtain ⟨e, n', b', h1'⟩ := hraw
    unfold compressedAs at h1 h1'
    rw [h1'] at h1
    cases h1
    rw [if_neg (by simp)] at h2
    refine forEach_ub (P := fun _ => True) (k := i) (fun a _ => condenseChunk_raw a (by omega) h2) _ (fun c _ a _ => ?_)
      ((hord i).2 hi) _ trivial
    rcases condenseChunk_cases m.buf (condPositions 0 m.sizes) m.sizes c a with h | ⟨b, h⟩
    · exact .inl h
    · exact .inr ⟨b, h, trivial⟩
  refine ⟨fun hv => ?_, fun hv => ?_⟩
  · obtain ⟨m, e1, hm⟩ := comp_single hc (pref := pref) hin hv
    unfold benchOne
    rw [hnum]
    simp only [bind, BRes.bind, e1, hm.1, Bool.true_eq_false, if_false, if_true, key m hm _ hv.ordC]
  · obtain ⟨m, e1, hm⟩ := comp_batch hc (pref := pref) hin hv
    unfold benchCondBatch
    rw [if_neg (by rintro ⟨-, h⟩; exact h (Nat.mod_one _)), hnum]
    simp only [bind, BRes.bind, e1, hm.1, Bool.true_eq_false, if_false, key m hm _ hv.ordC]

/-- C84 is false with `CONDENSE` and batches of 16 chunks, even if every chunk can be compressed: the chunks of a batch are
looked for at a distance of 64 KiB, but they follow each other without gaps. If chunk `c`, looked for in this way, would end
behind the condensed data, the benchmark is undefined. (`sizes` are the compressed sizes.) -/
theorem C84_batch_false {f g : ChunkFn} (hc : SampleContract f g) (hg : ∀ a o src dst, g a o src dst ≠ .timeout)
    (pref num : Nat) (v : CondEnv) (inp : List Byte) (hin : inp.length = num * 65536) (hlt : inp.length < 2 ^ 64)
    (hv : EnvOk v num 16) (sizes : List Nat) (hsl : sizes.length = num)
    (hcomp : ∀ i < num, ∃ n b, compressedAs f v inp i none n b ∧ sizes[i]? = some n)
    (c n : Nat) (hcn : sizes[c]? = some n)
    (hover : sizes.sum < (sizes.take (c / 16 * 16)).sum + 65536 * (c % 16) + n) :
    benchCondBatch (Impl.trivial f g 1 pref) v inp = .ub := by
  have hnum : inp.length / sampleChunk = num := by unfold sampleChunk; omega
  obtain ⟨m, e1, hm⟩ := comp_batch hc (pref := pref) hin hv
  obtain ⟨z1, z2, z3⟩ := sizes_le hc hin hm fun i hi => by
    obtain ⟨n, b, h, -⟩ := hcomp i hi
    exact ⟨n, b, h⟩
  obtain ⟨m1, m2, m3, -⟩ := hm
  obtain rfl : m.sizes = sizes := by
    apply List.ext_getElem?
    intro i
    by_cases hi : i < num
    · obtain ⟨n1, b1, h1, h2, -⟩ := z3 i hi
      obtain ⟨n2, b2, h3, h4⟩ := hcomp i hi
      unfold compressedAs at h1 h3
      rw [h1] at h3
      cases h3
      rw [h2, h4]
    · rw [List.getElem?_eq_none (by omega), List.getElem?_eq_none (by omega)]
  have hcl : c < num := by
    rcases Nat.lt_or_ge c m.sizes.length with h | h
    · omega
    · rw [List.getElem?_eq_none h] at hcn; cases hcn
  obtain ⟨cond, c1, c2, -⟩ := condLoop_spec (out := m.buf) (sizes := m.sizes) m3 (by omega) z2 m2 v.ordC
    (fun c hc => (hv.ordC c).1 hc) (v.cond0 m.sizes.sum) (hv.cond0 _)
  have hcase : ∀ k < num, ∀ d : OmpMem, d.buf.length = num * 65536 ∧ d.sizes.length = num →
      decompBatchCond (Impl.trivial f g 1 pref) v.acond v.adec inp cond (condPositions 0 m.sizes) m.sizes num v.junk.rets2 k d
        = .ub ∨
      ∃ d', decompBatchCond (Impl.trivial f g 1 pref) v.acond v.adec inp cond (condPositions 0 m.sizes) m.sizes num
          v.junk.rets2 k d = .ok d' ∧ d'.buf.length = num * 65536 ∧ d'.sizes.length = num ∧
        ∀ i, k ≤ i → i < k + 16 → i < num → ∀ n, m.sizes[i]? = some n → n ≠ SIZE_MAX →
          (m.sizes.take k).sum + 65536 * (i - k) + n ≤ cond.length := by
    rintro k hk d ⟨d1, d2⟩
    have hget : m.sizes[k]? = some m.sizes[k] := List.getElem?_eq_getElem (by omega)
    obtain ⟨p1, p2⟩ := positions m3 (by omega) z2 hget
    exact decompBatchCond_cases hc.gsize hg hk hin m3 p1 (by omega) (hv.rets2 k) d d1 d2
  have hub : forEach (decompBatchCond (Impl.trivial f g 1 pref) v.acond v.adec inp cond (condPositions 0 m.sizes) m.sizes num
      v.junk.rets2) v.ord2 ⟨List.replicate inp.length 0, v.junk.sizes2, true⟩ = .ub := by
    refine forEach_ub (P := fun d => d.buf.length = num * 65536 ∧ d.sizes.length = num) (k := c / 16 * 16) (fun d hd => ?_) _
      (fun k hk d hd => ?_) ((hv.ord2 _).2 ⟨by omega, by omega⟩) _
      ⟨by show (List.replicate inp.length (0 : Byte)).length = _; rw [List.length_replicate, hin], hv.sizes2⟩
    · rcases hcase (c / 16 * 16) (by omega) d hd with h | ⟨d', h, -, -, h4⟩
      · exact h
      · have hne : n ≠ SIZE_MAX := by
          have := z2 n (List.mem_of_getElem? hcn)
          unfold SIZE_MAX; omega
        have := h4 c (by omega) (by omega) hcl n hcn hne
        rw [show c - c / 16 * 16 = c % 16 by omega] at this
        omega
    · rcases hcase k ((hv.ord2 k).1 hk).1 d hd with h | ⟨d', h, h2, h3, -⟩
      · exact .inl h
      · exact .inr ⟨d', h, h2, h3⟩
  unfold benchCondBatch
  rw [if_neg (by rintro ⟨-, h⟩; exact h (Nat.mod_one _)), hnum]
  simp only [bind, BRes.bind, e1, m1, Bool.true_eq_false, if_false, z1, c1, hub]

/-- C84, consequence: with 2 to 16 chunks that compress, one of which (but the last) to less than 64 KiB, the benchmark is
undefined. -/
theorem C84_batch_few_false {f g : ChunkFn} (hc : SampleContract f g) (hg : ∀ a o src dst, g a o src dst ≠ .timeout)
    (pref num : Nat) (v : CondEnv) (inp : List Byte) (hin : inp.length = num * 65536) (hle : num ≤ 16)
    (hv : EnvOk v num 16) (hcomp : ∀ i < num, ∃ n b, compressedAs f v inp i none n b)
    (i : Nat) (hi : i + 1 < num) (hsmall : ∃ n b, compressedAs f v inp i none n b ∧ n < 65536) :
    benchCondBatch (Impl.trivial f g 1 pref) v inp = .ub := by
  obtain ⟨m, -, hm⟩ := comp_batch hc (pref := pref) hin hv
  obtain ⟨z1, z2, z3⟩ := sizes_le hc hin hm hcomp
  have m3 := hm.2.2.1
  have hlast : m.sizes[num - 1]? = some (m.sizes[num - 1]'(by omega)) := List.getElem?_eq_getElem (by omega)
  refine C84_batch_false hc hg pref num v inp hin (by omega) hv m.sizes m3 (fun i hi => ?_) (num - 1) _ hlast ?_
  · obtain ⟨n, b, h1, h2, -⟩ := z3 i hi
    exact ⟨n, b, h1, h2⟩
  · obtain ⟨n, b, h1, h2, -⟩ := z3 i (by omega)
    obtain ⟨n', b', h3, h4⟩ := hsmall
    unfold compressedAs at h1 h3
    rw [h1] at h3
    cases h3
    have s1 := take_sum_succ h2
    have s2 := take_sum_succ hlast
    have hA : (m.sizes.take i).sum ≤ i * 65536 := by
      have := take_sum_bound (l := m.sizes.take i) fun n hn => z2 n (List.mem_of_mem_take hn)
      rwa [List.length_take, Nat.min_eq_left (by omega)] at this
    have hB : (m.sizes.take (num - 1)).sum ≤ (m.sizes.take (i + 1)).sum + (num - 1 - (i + 1)) * 65536 := by
      have h5 : m.sizes.take (num - 1) = m.sizes.take (i + 1) ++ (m.sizes.take (num - 1)).drop (i + 1) := by
        conv => lhs; rw [← List.take_append_drop (i + 1) (m.sizes.take (num - 1))]
        rw [List.take_take, Nat.min_eq_left (by omega)]
      have h6 := take_sum_bound (l := (m.sizes.take (num - 1)).drop (i + 1)) fun n hn =>
        z2 n (List.mem_of_mem_take (List.mem_of_mem_drop hn))
      rw [List.length_drop, List.length_take, Nat.min_eq_left (by omega)] at h6
      rw [h5, List.sum_append]
      omega
    rw [show (num - 1) / 16 * 16 = 0 by omega, show (num - 1) % 16 = num - 1 by omega, List.take_zero, List.sum_nil]
    have : m.sizes.take (num - 1 + 1) = m.sizes := by rw [List.take_of_length_le (by omega)]
    rw [this] at s2
    omega

/-- C84: success means that the data is right in all variants, whatever the implementation does. -/
theorem C84_success (impl : Impl) (v : CondEnv) (inp : List Byte) (r : BenchRes) (hr : r.ret = true)
    (h : benchCondBatch impl v inp = .ok r ∨ ∃ condense, benchOne condense impl v inp = .ok r) : r.decompressed = inp := by
  have hfin : ∀ olen d, benchFinish inp olen d = .ok r → r.decompressed = inp := by
    intro olen d h
    unfold benchFinish at h
    split at h
    · cases h; cases hr
    · split at h
      · cases h; cases hr
      · rename_i hx
        cases h
        simp only [not_or, ne_eq, Decidable.not_not] at hx
        exact hx.2.symm
  have hbind : ∀ {α : Type} (x : BRes α) (k : α → BRes BenchRes), (∀ a, k a = .ok r → r.decompressed = inp) →
      x.bind k = .ok r → r.decompressed = inp := by
    intro α x k hk h
    cases x with
    | ok a => exact hk a h
    | _ => cases h
  rcases h with h | ⟨condense, h⟩
  · unfold benchCondBatch at h
    split at h
    · cases h; cases hr
    · refine hbind _ _ (fun m h => ?_) h
      split at h
      · cases h; cases hr
      · exact hbind _ _ (fun c h => hbind _ _ (fun d h => hfin _ _ h) h) h
  · unfold benchOne at h
    refine hbind _ _ (fun m h => ?_) h
    split at h
    · cases h; cases hr
    · split at h
      · exact hbind _ _ (fun c h => hbind _ _ (fun d h => hfin _ _ h) h) h
      · exact hbind _ _ (fun d h => hfin _ _ h) h

/-! ## Concrete cases -/

theorem zeros_stream : ∃ s : List Byte, HwDecodes s (List.replicate 65536 0#8) ∧ s.length = 182 := by
  have h1 : OpStep (List.replicate 8 0#8) (.rep 62) (List.replicate 512 0#8) := by
    have := OpStep.rep (out := List.replicate 8 0#8) (n := 62) (by rw [List.length_replicate])
    rwa [List.length_replicate, List.drop_replicate, List.flatten_replicate_replicate, List.replicate_append_replicate] at this
  have hrun : Run [] (.zeros :: .rep 62 :: List.replicate 127 (.rep 63)) (List.replicate 65536 0#8) :=
    .cons .zeros (.cons h1 (zeros_run 127 512 (by decide)))
  have hlen : ((Op.zeros :: .rep 62 :: List.replicate 127 (.rep 63)).flatMap Op.bits).length = 1413 := by decide +kernel
  obtain ⟨s, h2, h3⟩ := exists_bytes 182 ((Op.zeros :: .rep 62 :: List.replicate 127 (.rep 63)).flatMap Op.bits ++
    trailer (List.replicate 65536 0#8) ++ List.replicate 6 false) (by
      have ht : ∀ x, (trailer x).length = 37 := fun x => by simp [trailer]
      rw [List.length_append, List.length_append, hlen, ht, List.length_replicate])
  refine ⟨s, ⟨_, _, ⟨fun op h => ?_, hrun⟩, fun op h => ?_, h2⟩, h3⟩
  · rcases List.mem_cons.1 h with rfl | h
    · trivial
    · rcases List.mem_cons.1 h with rfl | h
      · show 62 < 64; omega
      · rw [List.eq_of_mem_replicate h]; show 63 < 64; omega
  · rcases List.mem_cons.1 h with rfl | h
    · rfl
    · rcases List.mem_cons.1 h with rfl | h
      · rfl
      · rw [List.eq_of_mem_replicate h]; rfl

theorem sw_zeros (e : Endian) (addr : Nat) (j : CompJunk) : ∃ n b,
    sw842Compress e addr j (List.replicate 65536 0#8) (List.replicate 65536 0#8) = .ret none n b ∧ n < 65536 := by
  obtain ⟨s0, hs0⟩ := C10_sw_capacity_exact (List.replicate 65536 0#8)
  obtain ⟨n, b, h1, -⟩ := C12_sw_worst_case e addr j (List.replicate 65536 0#8) (List.replicate 131072 0#8)
    (by rw [List.length_replicate, List.length_replicate]; decide) (by rw [List.length_replicate]; decide)
  obtain ⟨s, h2, h3⟩ := zeros_stream
  have h4 := C70_ratio e addr j _ _ n b s (by rw [List.length_replicate]) h1 h2
  obtain ⟨b0, -, h5⟩ := hs0 e addr j (List.replicate 131072 0#8)
  rw [h1] at h5
  have hn : s0.length = n := by
    split at h5
    · have := h5.1; cases this; rfl
    · cases h5
  obtain ⟨b1, -, h6⟩ := hs0 e addr j (List.replicate 65536 0#8)
  rw [if_pos (by rw [List.length_replicate]; omega)] at h6
  exact ⟨_, _, h6.1, by omega⟩

theorem sw_enospc_new (e : Endian) (addr : Nat) (j : CompJunk) (x buf : List Byte) (hx : AllNew x) (hl : x.length = 65536)
    (hb : buf.length = 65536) : ∃ b, sw842Compress e addr j x buf = .ret (some .ENOSPC) 0 b := by
  have h := C66_sw_exact e addr j x buf hx (by omega) (by omega)
  rw [hl, hb] at h
  exact h

theorem sw_counting (e : Endian) (addr : Nat) (j : CompJunk) : ∃ b,
    sw842Compress e addr j (counting 8192) (List.replicate 65536 0#8) = .ret (some .ENOSPC) 0 b :=
  sw_enospc_new e addr j _ _ (counting_new 8192) (length_counting 8192) List.length_replicate

/-- Addresses, contents of uninitialised memory and orders of the iterations for examples with two chunks -/
def exCondEnv (ord1 ord2 : List Nat) : CondEnv :=
  ⟨64, 128, 192, 256, ⟨fun _ => List.replicate 16 none, fun _ => List.replicate 16 none, [3, 4], [5, 6]⟩,
    fun n => List.replicate n 7, ord1, [1, 0], ord2⟩

theorem exCondEnv1 : EnvOk (exCondEnv [1, 0] [0, 1]) 2 1 where
  rets1 _ := rfl
  rets2 _ := rfl
  sizes1 := rfl
  sizes2 := rfl
  cond0 _ := List.length_replicate
  nodup1 := by decide
  nodup2 := by decide
  ord1 k := by simp only [exCondEnv, List.mem_cons, List.not_mem_nil, or_false]; omega
  ord2 k := by simp only [exCondEnv, List.mem_cons, List.not_mem_nil, or_false]; omega
  ordC k := by simp only [exCondEnv, List.mem_cons, List.not_mem_nil, or_false]; omega

theorem exCondEnv16 : EnvOk (exCondEnv [0] [0]) 2 16 where
  rets1 _ := rfl
  rets2 _ := rfl
  sizes1 := rfl
  sizes2 := rfl
  cond0 _ := List.length_replicate
  nodup1 := by decide
  nodup2 := by decide
  ord1 k := by simp only [exCondEnv, List.mem_cons, List.not_mem_nil, or_false]; omega
  ord2 k := by simp only [exCondEnv, List.mem_cons, List.not_mem_nil, or_false]; omega
  ordC k := by simp only [exCondEnv, List.mem_cons, List.not_mem_nil, or_false]; omega

theorem zeros_chunk (i : Nat) (hi : i < 2) :
    ((List.replicate (2 * 65536) 0#8).drop (i * 65536)).take 65536 = List.replicate 65536 0#8 := by
  rw [List.drop_replicate, List.take_replicate, Nat.min_eq_left (by omega)]

theorem zeros_compress (e : Endian) (j : Nat → CompJunk) (v : CondEnv) (i : Nat) (hi : i < 2) :
    ∃ n b, compressedAs (swC e j) v (List.replicate (2 * 65536) 0#8) i none n b ∧ n < 65536 := by
  unfold compressedAs
  rw [zeros_chunk i hi]
  exact sw_zeros e _ _

theorem swD_returns (e : Endian) : ∀ a o src dst, swD e a o src dst ≠ .timeout := fun _ o src dst => by
  rw [show swD e _ o src dst = sw842Decompress e o src dst from rfl,
    ← (C09_sw_decompress_terminates e o (8 * src.length + 1) src dst (by omega)).2]
  exact (C09_sw_decompress_terminates e o (8 * src.length + 1) src dst (by omega)).1

theorem optD_returns (e : Endian) : ∀ a o src dst, optD e a o src dst ≠ .timeout := fun a o src dst => by
  rw [show optD e a o src dst = optsw842Decompress e a o src dst from rfl,
    ← (C09_opt_decompress_terminates e a o (8 * src.length + 1) src dst (by omega)).2]
  exact (C09_opt_decompress_terminates e a o (8 * src.length + 1) src dst (by omega)).1

/-- C84 fails for the serial implementation: with `CONDENSE` and batches the benchmark is undefined on 128 KiB of zeros, while it works
with single chunks; and in both cases it is undefined if the second chunk does not compress. -/
theorem C84_sw_false (e : Endian) (j : Nat → CompJunk) :
    (∃ n, benchOne true (Impl.trivial (swC e j) (swD e) 1 1) (exCondEnv [1, 0] [0, 1]) (List.replicate (2 * 65536) 0#8) =
      .ok ⟨true, some n, List.replicate (2 * 65536) 0#8⟩) ∧
    benchCondBatch (Impl.trivial (swC e j) (swD e) 1 1) (exCondEnv [0] [0]) (List.replicate (2 * 65536) 0#8) = .ub ∧
    benchOne true (Impl.trivial (swC e j) (swD e) 1 1) (exCondEnv [1, 0] [0, 1]) (List.replicate 65536 0#8 ++ counting 8192) = .ub ∧
    benchCondBatch (Impl.trivial (swC e j) (swD e) 1 1) (exCondEnv [0] [0]) (List.replicate 65536 0#8 ++ counting 8192) = .ub := by
  have hc := (C61_contracts e e (fun _ => ojunk0) j).1
  have hl : (counting 8192).length = 65536 := length_counting 8192
  have hin : (List.replicate 65536 0#8 ++ counting 8192).length = 2 * 65536 := by
    rw [List.length_append, List.length_replicate, hl]
  have hraw : ∀ v, ∃ er n b, compressedAs (swC e j) v (List.replicate 65536 0#8 ++ counting 8192) 1 (some er) n b := by
    intro v
    unfold compressedAs
    have hd : (List.replicate 65536 0#8 ++ counting 8192).drop (1 * 65536) = counting 8192 :=
      List.drop_left' (by rw [List.length_replicate])
    rw [hd, List.take_of_length_le (by omega)]
    obtain ⟨b, hb⟩ := sw_counting e (v.ain + 65536 * 1) (j (v.ain + 65536 * 1))
    exact ⟨_, _, _, hb⟩
  refine ⟨?_, ?_, ?_, ?_⟩
  · obtain ⟨sizes, -, -, h⟩ := C84_condense_partial hc 1 2 (exCondEnv [1, 0] [0, 1]) (List.replicate (2 * 65536) 0#8)
      List.length_replicate (by rw [List.length_replicate]; decide) exCondEnv1 (fun i hi => by
        obtain ⟨n, b, h, -⟩ := zeros_compress e j (exCondEnv [1, 0] [0, 1]) i hi
        exact ⟨n, b, h⟩)
    exact ⟨_, h⟩
  · exact C84_batch_few_false hc (swD_returns e) 1 2 (exCondEnv [0] [0]) (List.replicate (2 * 65536) 0#8) List.length_replicate
      (by decide) exCondEnv16 (fun i hi => by
        obtain ⟨n, b, h, -⟩ := zeros_compress e j (exCondEnv [0] [0]) i hi
        exact ⟨n, b, h⟩) 0 (by decide) (zeros_compress e j (exCondEnv [0] [0]) 0 (by decide))
  · exact (C84_raw_false hc 1 2 _ _ hin (by rw [hin]; decide) 1 (by decide) (hraw _)).1 exCondEnv1
  · exact (C84_raw_false hc 1 2 _ _ hin (by rw [hin]; decide) 1 (by decide) (hraw _)).2 exCondEnv16

/-- The hypotheses of `C84_single` are met, with a chunk that does not compress. -/
example : ∃ n, benchOne false (Impl.trivial (swC .big fun _ => junk0) (swD .big) 1 1) (exCondEnv [1, 0] [0, 1])
    (List.replicate 65536 0#8 ++ counting 8192) = .ok ⟨true, some n, List.replicate 65536 0#8 ++ counting 8192⟩ := by
  obtain ⟨sizes, -, -, h⟩ := C84_single (C61_contracts .big .big (fun _ => ojunk0) fun _ => junk0).1 1 2 (exCondEnv [1, 0] [0, 1])
    (List.replicate 65536 0#8 ++ counting 8192) (by
      rw [List.length_append, List.length_replicate, show (counting 8192).length = 65536 from length_counting 8192]) exCondEnv1
  exact ⟨_, h⟩

/-! ## Failures are reported -/

/-- C84: whatever compressor and decompressor report, as long as they stay within their buffers (`StaysInside`), the benchmark with single
chunks returns; success is reported only if the decompressed data is the input; and if a compression fails with
anything but `-ENOSPC`, failure is reported and nothing is decompressed. -/
theorem C84_single_reports {f g : ChunkFn} (hc : StaysInside f g) (pref num : Nat) (v : CondEnv) (inp : List Byte)
    (hin : inp.length = num * 65536) (hv : EnvOk v num 1) :
    ∃ r, benchOne false (Impl.trivial f g 1 pref) v inp = .ok r ∧ (r.ret = true → r.decompressed = inp) ∧
      ((∃ i < num, ∃ e n b, compressedAs f v inp i (some e) n b ∧ e ≠ .ENOSPC) →
        r = ⟨false, none, List.replicate inp.length 0⟩) := by
  have hnum : inp.length / sampleChunk = num := by unfold sampleChunk; omega
  obtain ⟨m, a1, a2, a3, a4, a5, -⟩ := compOneLoop_safe hc (req := 1) (pref := pref) (ain := v.ain) (aout := v.aout)
    (num := num) (inp := inp) (by omega) v.ord1 (fun k hk => ((hv.ord1 k).1 hk).1) hv.nodup1
    ⟨List.replicate (num * sampleChunk) 0, v.junk.sizes1, true⟩
    (by show (List.replicate (num * sampleChunk) (0 : Byte)).length = _; rw [List.length_replicate]; rfl) hv.sizes1
  unfold benchOne
  simp only [hnum, a1, bind, BRes.bind]
  by_cases hs : m.success = false
  · rw [if_pos hs]
    exact ⟨_, rfl, fun h => (by cases h), fun _ => rfl⟩
  · rw [if_neg hs]
    rw [Bool.not_eq_false] at hs
    obtain ⟨-, hsz⟩ := a4 hs
    obtain ⟨d, b1, b2, b3⟩ := decompOneLoop_safe hc (req := 1) (pref := pref) (acomp := v.aout) (adec := v.adec)
      (num := num) (inp := inp) (comp := m.buf) (poss := (List.range num).map (sampleChunk * ·)) (csizes := m.sizes) hin
      (fun i hi => by
        obtain ⟨n, h1, h2⟩ := hsz i ((hv.ord1 i).2 ⟨hi, Nat.mod_one _⟩)
        refine ⟨n, sampleChunk * i, h1, ?_, by rw [a2]; unfold sampleChunk; omega, fun hne => ?_⟩
        · rw [List.getElem?_map, List.getElem?_range hi]; rfl
        · have hn := h2.resolve_left hne
          exact ⟨hn, by rw [a2]; unfold sampleChunk; omega⟩)
      v.ord2 (fun k hk => ((hv.ord2 k).1 hk).1)
      ⟨List.replicate inp.length 0, v.junk.sizes2, true⟩
      (by show (List.replicate inp.length (0 : Byte)).length = _; rw [List.length_replicate, hin]) hv.sizes2
    refine ⟨if d.success = false then ⟨false, some (condOlen m.sizes), d.buf⟩
      else if inp.length ≠ d.sizes.sum ∨ inp ≠ d.buf then ⟨false, some (condOlen m.sizes), d.buf⟩
      else ⟨true, some (condOlen m.sizes), d.buf⟩, ?_, ?_, ?_⟩
    · simp only [b1, benchFinish, Bool.false_eq_true, if_false]
      split
      · rfl
      · split <;> rfl
    · split
      · intro h; cases h
      · split
        · intro h; cases h
        · rename_i h1 h2
          intro _
          by_contra hne
          exact h2 (Or.inr fun h => hne h.symm)
    · rintro ⟨i, hi, e, n, b, h1, h2⟩
      rw [a5 ⟨i, (hv.ord1 i).2 ⟨hi, Nat.mod_one _⟩, e, n, b, by
        show f _ _ _ (chunkOf (List.replicate (num * sampleChunk) 0) i) = _
        rw [chunk_zeros hi]
        exact h1, h2⟩] at hs
      cases hs

/-- The serial compressor with a decompressor that always fails stays within the buffers -/
theorem failing_inside (e : Endian) (j : Nat → CompJunk) :
    StaysInside (swC e j) (fun _ _ _ dst => .ret (some .EINVAL) 0 dst) := by
  have hc := (C61_contracts e e (fun _ => ojunk0) j).1
  refine ⟨fun a o src dst h1 h2 => ?_, fun a o src dst _ h => ⟨_, _, _, rfl, h⟩⟩
  obtain ⟨rc, n, b, h⟩ := hc.total a o src dst h1 h2
  refine ⟨rc, n, b, h, (hc.fsize _ _ _ _ _ _ _ h).trans h2, fun hr => ?_⟩
  subst hr
  exact hc.fits _ _ _ _ _ _ h1 h2 h

/-- so the hypotheses of `C84_single_reports` are met. -/
example : ∃ r, benchOne false (Impl.trivial (swC .big fun _ => junk0) (fun _ _ _ dst => .ret (some .EINVAL) 0 dst) 1 1)
    (exCondEnv [1, 0] [0, 1]) (List.replicate 65536 0#8 ++ counting 8192) = .ok r ∧
    (r.ret = true → r.decompressed = List.replicate 65536 0#8 ++ counting 8192) := by
  obtain ⟨r, h1, h2, -⟩ := C84_single_reports (failing_inside .big fun _ => junk0) 1 2 (exCondEnv [1, 0] [0, 1])
    (List.replicate 65536 0#8 ++ counting 8192) (by
      rw [List.length_append, List.length_replicate, show (counting 8192).length = 65536 from length_counting 8192]) exCondEnv1
  exact ⟨r, h1, h2⟩

end Lib842.Props
