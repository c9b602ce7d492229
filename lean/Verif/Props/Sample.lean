import Verif.Proofs.Sample
import Verif.Props.StreamBlock
/-!
# C61: the sample program

`SampleContract f g` is in `Verif/Proofs/Sample.lean`: `ChunkContract f g`, and the compressor fails
only with `-ENOSPC` and does not announce more bytes than there is space.
-/

namespace Lib842.Props
open Lib842 Spec

theorem sw_enospc {e : Endian} {a : Nat} {j : CompJunk} {src dst : List Byte} {er : Errno} {n : Nat} {buf : List Byte}
    (h : sw842Compress e a j src dst = .ret (some er) n buf) : er = .ENOSPC := by
  obtain ⟨s, hs⟩ := C10_sw_capacity_exact src
  obtain ⟨b, -, hb⟩ := hs e a j dst
  rw [h] at hb
  split at hb
  · cases hb.1
  · cases hb; rfl

/-- C61: the software implementations meet the contract. -/
theorem C61_contracts (e e' : Endian) (j : Nat → OptJunk) (jsw : Nat → CompJunk) :
    SampleContract (swC e jsw) (swD e') ∧ SampleContract (optC e j jsw) (optD e') := by
  obtain ⟨h1, h2, -, -⟩ := C36_contracts e e' j jsw
  refine ⟨⟨h1, ?_, ?_⟩, ⟨h2, ?_, ?_⟩⟩
  · intro a o src dst er n buf _ _ h
    exact sw_enospc h
  · intro a o src dst n buf hs hd h
    have h : sw842Compress e a (jsw a) src dst = .ret none n buf := h
    have := (C07_sw_length_contract e e a a (jsw a) (jsw a) src dst dst n n buf buf h h).2.2.1
    omega
  · intro a o src dst er n buf hs hd h
    have h : optsw842Compress e a o (j a) (jsw a) src dst = .ret (some er) n buf := h
    have hne : src ≠ [] := by intro hx; rw [hx] at hs; simp at hs
    obtain ⟨⟨s, hal⟩, hun⟩ := C10_opt_capacity_exact src (by omega) hne
    by_cases ha : a % 8 = 0 ∧ o % 8 = 0
    · obtain ⟨b, -, hb⟩ := hal e a o (j a) (jsw a) dst ha.1 ha.2
      rw [h] at hb
      split at hb
      · cases hb.1
      · cases hb; rfl
    · rw [hun e a o (j a) (jsw a) dst (by omega)] at h
      exact sw_enospc h
  · intro a o src dst n buf hs hd h
    have h : optsw842Compress e a o (j a) (jsw a) src dst = .ret none n buf := h
    have := (C07_opt_length_contract e e a o a o (j a) (j a) (jsw a) (jsw a) src dst dst n n buf buf Iff.rfl h h).2.2.1
    omega

/-- C61: the benchmark of the sample (two OpenMP loops over batches of 16 chunks) on any buffer of
whole chunks, whatever the order in which the batches are processed and whatever the
uninitialised arrays contain: it returns `true`, the decompressed data is the input, and the
length reported is the sum of the compressed sizes, where a chunk that does not fit into its
64 KiB counts as 64 KiB. -/
theorem C61_benchmark {f g : ChunkFn} (hc : SampleContract f g) (ain aout adec pref : Nat) (inp : List Byte)
    (j : SampleJunk) (ord1 ord2 : List Nat) (num : Nat) (hin : inp.length = num * 65536)
    (hr1 : ∀ k, (j.rets1 k).length = 16) (hr2 : ∀ k, (j.rets2 k).length = 16) (hs1 : j.sizes1.length = num)
    (hs2 : j.sizes2.length = num)
    (hn1 : ord1.Nodup) (hord1 : ∀ k, k ∈ ord1 ↔ k < num ∧ k % 16 = 0)
    (hn2 : ord2.Nodup) (hord2 : ∀ k, k ∈ ord2 ↔ k < num ∧ k % 16 = 0) :
    ∃ sizes : List Nat, sizes.length = num ∧
      (∀ i < num, ∃ rc n b, f (ain + 65536 * i) (aout + 65536 * i) ((inp.drop (i * 65536)).take 65536)
          (List.replicate 65536 0) = .ret rc n b ∧
        sizes[i]? = some (if rc = none then n else 65536)) ∧
      benchCore (Impl.trivial f g 1 pref) ain aout adec inp j ord1 ord2 = .ok ⟨true, some sizes.sum, inp⟩ := by
  refine benchCore_spec hc ain aout adec pref inp j ord1 ord2 num hin hr1 hr2 hs1 hs2 ?_ ?_
  · exact (List.perm_ext_iff_of_nodup hn1 (nodup_batchStarts num)).2 fun k => (hord1 k).trans mem_batchStarts.symm
  · exact (List.perm_ext_iff_of_nodup hn2 (nodup_batchStarts num)).2 fun k => (hord2 k).trans mem_batchStarts.symm

/-- The hypotheses are met: 17 chunks of zeros, the second batch compressed first. -/
example : ∃ n, benchCore (Impl.trivial (optC .little (fun _ => ojunk0) fun _ => junk0) (optD .little) 1 8) 64 128 192
    (List.replicate (17 * 65536) 0)
    ⟨fun _ => List.replicate 16 none, fun _ => List.replicate 16 none, List.replicate 17 3, List.replicate 17 4⟩
    [16, 0] [0, 16] = .ok ⟨true, some n, List.replicate (17 * 65536) 0⟩ := by
  have hk : ∀ k, (k = 0 ∨ k = 16) ↔ k < 17 ∧ k % 16 = 0 := by omega
  obtain ⟨sizes, -, -, h⟩ := C61_benchmark (C61_contracts .little .little (fun _ => ojunk0) fun _ => junk0).2 64 128 192 8
    (List.replicate (17 * 65536) 0)
    ⟨fun _ => List.replicate 16 none, fun _ => List.replicate 16 none, List.replicate 17 3, List.replicate 17 4⟩
    [16, 0] [0, 16] 17 List.length_replicate (fun _ => rfl) (fun _ => rfl) rfl rfl (by decide)
    (fun k => by rw [← hk k]; simp [or_comm]) (by decide) (fun k => by rw [← hk k]; simp)
  exact ⟨_, h⟩

/-- C61: success means that the data is right, for any implementation whatsoever: if the benchmark
returns `true`, the decompressed data is the input. -/
theorem C61_success_benchmark (impl : Impl) (ain aout adec : Nat) (inp : List Byte) (j : SampleJunk) (ord1 ord2 : List Nat)
    (r : BenchRes) (h : benchCore impl ain aout adec inp j ord1 ord2 = .ok r) (hr : r.ret = true) :
    r.decompressed = inp := by
  unfold benchCore at h
  split at h
  · cases h; cases hr
  · cases hm : forEach (compBatch impl ain aout inp (inp.length / sampleChunk) j.rets1) ord1
        ⟨List.replicate (inp.length / sampleChunk * sampleChunk) 0, j.sizes1, true⟩ with
    | ok m =>
      simp only [hm, bind, BRes.bind] at h
      split at h
      · cases h; cases hr
      · cases hd : forEach (decompBatch impl aout adec inp m.buf m.sizes (inp.length / sampleChunk) j.rets2) ord2
            ⟨List.replicate inp.length 0, j.sizes2, true⟩ with
        | ok d =>
          simp only [hd] at h
          split at h
          · cases h; cases hr
          · split at h
            · cases h; cases hr
            · rename_i hx
              cases h
              simp only [not_or, ne_eq, Decidable.not_not] at hx
              exact hx.2.symm
        | _ => simp only [hd] at h; cases h
    | _ => simp only [hm, bind, BRes.bind] at h; cases h

/-- C61: the same for the simple test: the first bytes of the buffer are the input. -/
theorem C61_success_simple (impl : Impl) (ain aout adec : Nat) (inp out dec d : List Byte)
    (h : simpleTest impl ain aout adec inp out dec = .ok (true, d)) : d.take inp.length = inp := by
  unfold simpleTest at h
  split at h
  · cases h
  · cases h
  · cases h
  · rename_i olen out' _
    cases h1 : readBytes out' 0 olen with
    | none => simp only [h1, BRes.access, bind, BRes.bind] at h; cases h
    | some src =>
      simp only [h1, BRes.access, bind, BRes.bind] at h
      split at h
      · cases h
      · cases h
      · cases h
      · rename_i dlen dec' _
        cases h2 : readBytes dec' 0 dlen with
        | none => simp only [h2] at h; cases h
        | some x =>
          simp only [h2] at h
          split at h
          · cases h
          · cases h3 : readBytes dec' 0 inp.length with
            | none => simp only [h3] at h; cases h
            | some y =>
              simp only [h3] at h
              injection h with h
              injection h with h4 h5
              have h4 := of_decide_eq_true h4
              subst h5
              unfold readBytes at h3
              split at h3
              · injection h3 with h3
                rw [List.drop_zero] at h3
                exact h3.trans h4.symm
              · cases h3

/-- An implementation that does not compress and whose decompressor yields zeros: the test fails
unless the data is all zeros. -/
example : simpleTest (Impl.trivial (fun _ _ i _ => .ret none i.length (i ++ i)) (fun _ _ _ d => .ret none d.length d) 1 1) 0 0 0
      [1, 2] [0, 0, 0, 0] [0, 0] = .ok (false, [0, 0]) ∧
    simpleTest (Impl.trivial (fun _ _ i _ => .ret none i.length (i ++ i)) (fun _ _ _ d => .ret none d.length d) 1 1) 0 0 0
      [0, 0] [0, 0, 0, 0] [0, 0] = .ok (true, [0, 0]) := by
  decide

/-! ## The whole program -/

theorem nextMultiple_eq {n : Nat} (h : n < 2 ^ 63) :
    nextMultipleOfChunkSize n 65536 = (n + 65535) / 65536 * 65536 := by
  unfold nextMultipleOfChunkSize
  have h1 : (BitVec.ofNat 64 65536 - 1) = 65535#64 := by decide
  rw [h1]
  have h2 : ∀ x : BitVec 64, x &&& ~~~65535#64 = (x >>> 16) <<< 16 := by
    intro x
    apply BitVec.eq_of_getLsbD_eq
    intro i hi
    have hm : (65535#64).getLsbD i = decide (i < 16) := by
      have : 65535#64 = BitVec.ofNat 64 (2 ^ 16 - 1) := by decide
      rw [this, BitVec.getLsbD_ofNat, Nat.testBit_two_pow_sub_one]
      simp [hi]
    rw [BitVec.getLsbD_and, BitVec.getLsbD_not, hm, BitVec.getLsbD_shiftLeft, BitVec.getLsbD_ushiftRight]
    by_cases h16 : i < 16
    · simp [h16]
    · simp [h16, hi, show 16 + (i - 16) = i by omega]
  rw [h2, BitVec.toNat_shiftLeft, BitVec.toNat_ushiftRight, BitVec.toNat_add, BitVec.toNat_ofNat, BitVec.toNat_ofNat,
    Nat.shiftLeft_eq, Nat.shiftRight_eq_div_pow]
  omega

/-- The sample needs a compressor that succeeds if there is twice as much space as data, for 32 bytes and
for a unit of `L` bytes (a chunk by default). -/
structure RoomyContract (f g : ChunkFn) (L : Nat := 65536) : Prop where
  works : ∀ a o o' src dst dec, src.length = 32 ∨ src.length = L → dst.length = 2 * src.length →
    dec.length = src.length → ∃ n buf, f a o src dst = .ret none n buf ∧ n ≤ buf.length ∧
      g o o' (buf.take n) dec = .ret none src.length src

theorem roomy_sw (e e' : Endian) (j : Nat → CompJunk) (L : Nat := 65536) (hL : L = 65536 ∨ L = 1048576 := by decide) :
    RoomyContract (swC e j) (swD e') L := by
  refine ⟨fun a o o' src dst dec hl hd hdec => ?_⟩
  have h8 : src.length % 8 = 0 := by omega
  obtain ⟨n, b, h1, -⟩ := C12_sw_worst_case e a (j a) src dst (by rw [if_pos h8]; omega) (by rw [if_pos h8]; omega)
  obtain ⟨b', h2, h3, h4⟩ := C01_sw_round_trip e e' a o' (j a) src dst dec n b (by omega) h1 (by omega)
  have h5 := (C07_sw_length_contract e e a a (j a) (j a) src dst dst n n b b h1 h1).2.2.2.1
  have h6 : b' = src := by rw [← h3, List.take_of_length_le (by omega)]
  rw [h6] at h2
  exact ⟨n, b, h1, h5, h2⟩

theorem roomy_opt (e e' : Endian) (j : Nat → OptJunk) (jsw : Nat → CompJunk) (L : Nat := 65536)
    (hL : L = 65536 ∨ L = 1048576 := by decide) : RoomyContract (optC e j jsw) (optD e') L := by
  refine ⟨fun a o o' src dst dec hl hd hdec => ?_⟩
  have h8 : src.length % 8 = 0 := by omega
  have hne : src ≠ [] := by intro hx; rw [hx] at hl; simp only [List.length_nil] at hl; omega
  obtain ⟨n, b, h1, -⟩ := C12_opt_worst_case e a o (j a) (jsw a) src dst h8 hne (by omega) (.inr (by omega))
  obtain ⟨b', h2, h3, h4⟩ := C02_opt_round_trip_partial e e' a o o o' (j a) (jsw a) src dst dec n b h1
      (by omega) (.inr (by omega))
  have h5 := (C07_opt_length_contract e e a o a o (j a) (j a) (jsw a) (jsw a) src dst dst n n b b Iff.rfl h1 h1).2.2.2.1
  have h6 : b' = src := by rw [← h3, List.take_of_length_le (by omega)]
  rw [h6] at h2
  exact ⟨n, b, h1, h5, h2⟩

theorem simpleTest_ok {f g : ChunkFn} {L : Nat} (hc : RoomyContract f g L) (ain aout adec pref : Nat) (inp : List Byte)
    (hl : inp.length = 32 ∨ inp.length = L) :
    simpleTest (Impl.trivial f g 1 pref) ain aout adec inp (List.replicate (inp.length * 2) 0)
      (List.replicate inp.length 0) = .ok (true, inp) := by
  obtain ⟨n, buf, h1, h2, h3⟩ := hc.works ain aout adec inp (List.replicate (inp.length * 2) 0)
    (List.replicate inp.length 0) hl (by rw [List.length_replicate, Nat.mul_comm]) List.length_replicate
  have hr : readBytes buf 0 n = some (buf.take n) := by
    unfold readBytes; rw [if_pos (by omega)]; rfl
  have hr2 : readBytes inp 0 inp.length = some inp := by
    unfold readBytes; rw [if_pos (by omega), List.drop_zero, List.take_length]
  unfold simpleTest
  simp only [Impl.trivial, h1, hr, BRes.access, bind, BRes.bind, h3, hr2]
  simp

theorem compdecomp_run {f g : ChunkFn} (hc : SampleContract f g) (hc2 : RoomyContract f g) (ain aout adec pref : Nat)
    (j : SampleJunk) (sched1 sched2 : List Nat → List Nat) (hs1 : ∀ l, (sched1 l).Perm l) (hs2 : ∀ l, (sched2 l).Perm l)
    (inp : List Byte) (hl : inp.length = 32 ∨ ∃ k, 0 < k ∧ inp.length = k * 65536)
    (hr1 : ∀ k, (j.rets1 k).length = 16) (hr2 : ∀ k, (j.rets2 k).length = 16) (hz1 : j.sizes1.length = inp.length / 65536)
    (hz2 : j.sizes2.length = inp.length / 65536) :
    compdecomp.run (Impl.trivial f g 1 pref) ain aout adec j sched1 sched2 inp = .ok true := by
  unfold compdecomp.run
  by_cases hgt : inp.length > sampleChunk
  · rw [if_pos hgt]
    have hdiv : inp.length / sampleChunk = inp.length / 65536 := rfl
    obtain ⟨k, -, hk⟩ : ∃ k, 0 < k ∧ inp.length = k * 65536 := by
      rcases hl with hl | hl
      · exact absurd hgt (by rw [hl]; decide)
      · exact hl
    have hkd : inp.length / 65536 = k := by rw [hk, Nat.mul_div_cancel _ (by decide)]
    rw [hdiv, hkd]
    rw [hkd] at hz1 hz2
    obtain ⟨sizes, -, -, h⟩ := benchCore_spec hc ain aout adec pref inp j (sched1 (batchStarts k)) (sched2 (batchStarts k)) k hk
      hr1 hr2 hz1 hz2 (hs1 _) (hs2 _)
    simp only [h, bind, BRes.bind]
  · rw [if_neg hgt]
    have hle : inp.length = 32 ∨ inp.length = 65536 := by
      rcases hl with hl | ⟨k, h0, hk⟩
      · exact .inl hl
      · right
        have h1 : ¬ inp.length > 65536 := hgt
        have h2 : 1 * 65536 ≤ k * 65536 := Nat.mul_le_mul_right _ h0
        rw [Nat.one_mul] at h2
        omega
    rw [simpleTest_ok hc2 ain aout adec pref inp hle]
    rfl

/-- `compdecomp.c` built with the serial and with the optimized implementation -/
def sampleImpls (e : Endian) (j : Nat → OptJunk) (jsw : Nat → CompJunk) : List Impl :=
  [Impl.trivial (swC e jsw) (swD e) 1 1, Impl.trivial (optC e j jsw) (optD e) 1 8]

theorem program_aux (e : Endian) (j : Nat → OptJunk) (jsw : Nat → CompJunk) (impl : Impl)
    (himpl : impl ∈ sampleImpls e j jsw) : ∃ f g pref, impl = Impl.trivial f g 1 pref ∧ SampleContract f g ∧ RoomyContract f g := by
  obtain ⟨h1, h2⟩ := C61_contracts e e j jsw
  rcases List.mem_cons.1 himpl with rfl | h
  · exact ⟨_, _, _, rfl, h1, roomy_sw e e jsw⟩
  · rcases List.mem_cons.1 h with rfl | h
    · exact ⟨_, _, _, rfl, h2, roomy_opt e e j jsw⟩
    · cases h

/-- C61: run on any readable file that is not empty, the sample program ends with `EXIT_SUCCESS`, for
every assignment of addresses, every order of the batches and every content of uninitialised
memory (the arrays have one element per chunk of the padded file). -/
theorem C61_program_partial (e : Endian) (j : Nat → OptJunk) (jsw : Nat → CompJunk) (impl : Impl)
    (himpl : impl ∈ sampleImpls e j jsw) (ain aout adec : Nat) (jk : SampleJunk) (sched1 sched2 : List Nat → List Nat)
    (hs1 : ∀ l, (sched1 l).Perm l) (hs2 : ∀ l, (sched2 l).Perm l) (file : List Byte) (hne : file ≠ [])
    (hlen : file.length < 2 ^ 63)
    (hr1 : ∀ k, (jk.rets1 k).length = 16) (hr2 : ∀ k, (jk.rets2 k).length = 16)
    (hz1 : jk.sizes1.length = (file.length + 65535) / 65536) (hz2 : jk.sizes2.length = (file.length + 65535) / 65536) :
    compdecomp impl ain aout adec jk sched1 sched2 (some (some file)) = .ok true := by
  obtain ⟨f, g, pref, rfl, hc, hc2⟩ := program_aux e j jsw impl himpl
  have hm : nextMultipleOfChunkSize file.length sampleChunk = (file.length + 65535) / 65536 * 65536 := nextMultiple_eq hlen
  have hpos : 0 < file.length := by
    cases file with
    | nil => exact absurd rfl hne
    | cons _ _ => simp
  obtain ⟨inp, hw⟩ := writeBytes_some (m := List.replicate ((file.length + 65535) / 65536 * 65536) 0) (bs := file) (i := 0)
    (by rw [List.length_replicate]; omega)
  have hl : inp.length = (file.length + 65535) / 65536 * 65536 := by
    rw [(writeBytes_get hw).1, List.length_replicate]
  have hdiv : inp.length / 65536 = (file.length + 65535) / 65536 := by rw [hl, Nat.mul_div_cancel _ (by decide)]
  show BRes.bind (readFile file sampleChunk) _ = _
  unfold readFile
  rw [hm, hw]
  exact compdecomp_run hc hc2 ain aout adec pref jk sched1 sched2 hs1 hs2 inp
    (.inr ⟨_, Nat.div_pos (by omega) (by decide), hl⟩) hr1 hr2 (hdiv ▸ hz1) (hdiv ▸ hz2)

/-- The hypotheses are met: a file of 70000 bytes (two chunks). -/
example : compdecomp (Impl.trivial (swC .big fun _ => junk0) (swD .big) 1 1) 1 2 3
    ⟨fun _ => List.replicate 16 none, fun _ => List.replicate 16 none, [5, 6], [7, 8]⟩ id List.reverse
    (some (some (List.replicate 70000 0x61))) = .ok true :=
  C61_program_partial .big (fun _ => ojunk0) (fun _ => junk0) _ List.mem_cons_self 1 2 3 _ _ _ (fun _ => .refl _)
    List.reverse_perm _ (by intro h; have := congrArg List.length h; rw [List.length_replicate] at this; simp at this)
    (by rw [List.length_replicate]; decide) (fun _ => rfl) (fun _ => rfl)
    (by rw [List.length_replicate]; rfl) (by rw [List.length_replicate]; rfl)

/-- C61: the same without a file, when the built-in test string is used. -/
theorem C61_program_test_string (e : Endian) (j : Nat → OptJunk) (jsw : Nat → CompJunk) (impl : Impl)
    (himpl : impl ∈ sampleImpls e j jsw) (ain aout adec : Nat) (jk : SampleJunk) (sched1 sched2 : List Nat → List Nat) :
    compdecomp impl ain aout adec jk sched1 sched2 none = .ok true := by
  obtain ⟨f, g, pref, rfl, hc, hc2⟩ := program_aux e j jsw impl himpl
  show compdecomp.run _ _ _ _ _ _ _ testString = _
  unfold compdecomp.run
  rw [if_neg (by decide), simpleTest_ok hc2 ain aout adec pref testString (.inl (by decide))]
  rfl

theorem compdecomp_file {impl : Impl} {ain aout adec : Nat} {jk : SampleJunk} {sched1 sched2 : List Nat → List Nat}
    {file inp : List Byte} (h : readFile file sampleChunk = .ok inp) :
    compdecomp impl ain aout adec jk sched1 sched2 (some (some file)) =
      compdecomp.run impl ain aout adec jk sched1 sched2 inp := by
  unfold compdecomp
  simp only [h, bind, BRes.bind]

/-- C61 is false for an empty file: the program fails with the serial implementation (there is no
space for the end marker) and is undefined with the optimized one and aligned buffers. -/
theorem C61_program_empty_false (e : Endian) (j : Nat → OptJunk) (jsw : Nat → CompJunk) (ain aout adec : Nat)
    (jk : SampleJunk) (sched1 sched2 : List Nat → List Nat) :
    compdecomp (Impl.trivial (swC e jsw) (swD e) 1 1) ain aout adec jk sched1 sched2 (some (some [])) = .ok false ∧
    (ain % 8 = 0 → aout % 8 = 0 →
      compdecomp (Impl.trivial (optC e j jsw) (optD e) 1 8) ain aout adec jk sched1 sched2 (some (some [])) = .ub) := by
  have hrd : readFile [] sampleChunk = .ok [] := by decide
  refine ⟨?_, fun h1 h2 => ?_⟩
  · rw [compdecomp_file hrd]
    unfold compdecomp.run
    rw [if_neg (by decide)]
    have hf : ∃ b, swC e jsw ain aout [] [] = .ret (some .ENOSPC) 0 b := by
      obtain ⟨s, hs⟩ := C10_sw_capacity_exact []
      obtain ⟨b, -, hb⟩ := hs e ain (jsw ain) []
      by_cases hx : s.length ≤ ([] : List Byte).length ∧ s.length ≤ 0xffffffff
      · rw [if_pos hx] at hb
        have h0 := (C07_sw_length_contract e e ain ain (jsw ain) (jsw ain) [] [] [] _ _ b b hb.1 hb.1).1
        have := hx.1
        simp only [List.length_nil] at this
        omega
      · rw [if_neg hx] at hb
        exact ⟨b, hb⟩
    obtain ⟨b, hb⟩ := hf
    show BRes.bind (simpleTest (Impl.trivial (swC e jsw) (swD e) 1 1) ain aout adec [] [] []) _ = _
    unfold simpleTest
    simp only [Impl.trivial, hb]
    rfl
  · rw [compdecomp_file hrd]
    unfold compdecomp.run
    rw [if_neg (by decide)]
    have hf : optC e j jsw ain aout [] [] = .ub :=
      (C04_opt_compress_in_bounds e ain aout (j ain) (jsw ain) [] []).1.2 ⟨rfl, h1, h2⟩
    show BRes.bind (simpleTest (Impl.trivial (optC e j jsw) (optD e) 1 8) ain aout adec [] [] []) _ = _
    unfold simpleTest
    simp only [Impl.trivial, hf]
    rfl

end Lib842.Props
