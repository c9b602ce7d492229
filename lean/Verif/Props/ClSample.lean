import Verif.Proofs.ClSample
import Verif.Props.NewWords
/-!
# C67: the OpenCL sample
-/

namespace Lib842.Props
open Lib842 Spec

/-- What `*olen` should be: the sum of the compressed sizes; what it is for a sum below 2^31. -/
theorem C67_olen_partial (sizes : List Nat) (h : sizes.sum < 2 ^ 31) : accumulateInt sizes = sizes.sum := accumulate_small h

example : accumulateInt [24, 70664, 1000] = 71688 := by decide

/-- C67, default format: on any buffer of whole chunks, whatever the order in which the chunks are compressed and the
work items run, whatever addresses and previous contents of the buffers, the benchmark returns `true`, the decompressed
data is the input, and `*olen` is computed (see `C67_olen_partial`) from the sizes of the streams. -/
theorem C67_always_partial (e : Endian) (sh : Bool) (J : ClJunk) (ord : List Nat) (order : Nat → List Nat) (inp : List Byte) (num : Nat)
    (hnum : 0 < num) (hin : inp.length = num * 65536) (hord : ord.Perm (List.range num))
    (horder : ∀ g, (order g).Perm (List.range g)) (hdev : J.dev.length = num * 65536) :
    ∃ sizes : List Nat, sizes.length = num ∧
      (∀ i < num, ∃ n b, sizes[i]? = some n ∧
        optsw842Compress e (J.ain + 65536 * i) (J.aout + 131072 * i) (J.opt i) (J.sw i) ((inp.drop (65536 * i)).take 65536)
          (List.replicate 131072 0) = .ret none n b) ∧
      clBench e .always sh J ord order inp = .ok ⟨true, some (accumulateInt sizes), inp⟩ := by
  obtain ⟨sizes, ⟨h1, h2⟩, h3⟩ := clBench_always e sh J ord order inp num hnum hin hord horder hdev
  exact ⟨sizes, h1, h2, h3⟩

/-- C67, packed chunks in a separate buffer: same, if no chunk that is stored as it is begins with the marker. -/
theorem C67_maybe_partial (e : Endian) (sh : Bool) (J : ClJunk) (ord : List Nat) (order : Nat → List Nat) (inp : List Byte) (num : Nat)
    (hnum : 0 < num) (hin : inp.length = num * 65536) (hord : ord.Perm (List.range num))
    (horder : ∀ g, (order g).Perm (List.range g)) (hdev : J.dev.length = num * 65536)
    (htmp : ∀ i < num, (J.tmp i).length = 131072)
    (hm : ∀ i < num, ∀ n t, optsw842Compress e (J.ain + 65536 * i) (J.atmp i) (J.opt i) (J.sw i)
      ((inp.drop (65536 * i)).take 65536) (J.tmp i) = .ret none n t →
      n ≤ 65512 ∨ ((inp.drop (65536 * i)).take 65536).take 16 ≠ marker) :
    ∃ sizes : List Nat, sizes.length = num ∧
      (∀ i < num, ∃ n b, sizes[i]? = some n ∧
        optsw842Compress e (J.ain + 65536 * i) (J.atmp i) (J.opt i) (J.sw i) ((inp.drop (65536 * i)).take 65536)
          (J.tmp i) = .ret none n b) ∧
      clBench e .maybe sh J ord order inp = .ok ⟨true, some (accumulateInt sizes), inp⟩ := by
  obtain ⟨sizes, ⟨h1, h2⟩, h3⟩ := clBench_maybe e sh J ord order inp num hnum hin hord horder hdev htmp hm
  exact ⟨sizes, h1, h2, h3⟩

/-- C67, chunks decompressed in place: same, if moreover the streams leave room. -/
theorem C67_inplace_partial (e : Endian) (sh : Bool) (J : ClJunk) (ord : List Nat) (order : Nat → List Nat) (inp : List Byte) (num : Nat)
    (hin : inp.length = num * 65536) (hord : ord.Perm (List.range num))
    (horder : ∀ g, (order g).Perm (List.range g)) (htmp : ∀ i < num, (J.tmp i).length = 131072)
    (hm : ∀ i < num, ∀ n t, optsw842Compress e (J.ain + 65536 * i) (J.atmp i) (J.opt i) (J.sw i)
      ((inp.drop (65536 * i)).take 65536) (J.tmp i) = .ret none n t →
      if n ≤ 65512 then ∃ ops rest, Expands ops ((inp.drop (65536 * i)).take 65536) ∧ (∀ op ∈ ops, op.isShort = false) ∧
        bytesBits (t.take n) = ops.flatMap Op.bits ++ (trailer ((inp.drop (65536 * i)).take 65536) ++ rest) ∧ RoomInPlace 65536 n ops
      else ((inp.drop (65536 * i)).take 65536).take 16 ≠ marker) :
    ∃ sizes : List Nat, sizes.length = num ∧
      (∀ i < num, ∃ n b, sizes[i]? = some n ∧
        optsw842Compress e (J.ain + 65536 * i) (J.atmp i) (J.opt i) (J.sw i) ((inp.drop (65536 * i)).take 65536)
          (J.tmp i) = .ret none n b) ∧
      clBench e .inplace sh J ord order inp = .ok ⟨true, some (accumulateInt sizes), inp⟩ := by
  obtain ⟨sizes, ⟨h1, h2⟩, h3⟩ := clBench_inplace e sh J ord order inp num hin hord horder htmp hm
  exact ⟨sizes, h1, h2, h3⟩

/-- Addresses and memory contents for examples -/
def clJunk (num : Nat) : ClJunk :=
  ⟨64, 128, fun i => 8 * i + 3, fun _ => ojunk0, fun _ => junk0, fun _ => List.replicate 131072 7, List.replicate (num * 65536) 0,
    List.replicate 64 9⟩

/-- The hypotheses are met: three chunks of zeros, compressed and decompressed in reverse order. -/
example : ∃ n, clBench .little .always true (clJunk 3) [2, 1, 0] (fun g => (List.range g).reverse) (List.replicate (3 * 65536) 0) =
    .ok ⟨true, some n, List.replicate (3 * 65536) 0⟩ := by
  obtain ⟨sizes, -, -, h⟩ := C67_always_partial .little true (clJunk 3) [2, 1, 0] (fun g => (List.range g).reverse)
    (List.replicate (3 * 65536) 0) 3 (by decide) List.length_replicate (by decide) (fun g => List.reverse_perm _)
    List.length_replicate
  exact ⟨_, h⟩

theorem part_zeros {num i : Nat} (hi : i < num) :
    ((List.replicate (num * 65536) (0 : Byte)).drop (65536 * i)).take 65536 = List.replicate 65536 0 := part_replicate hi

example : ∃ n, clBench .little .maybe false (clJunk 3) [1, 2, 0] List.range (List.replicate (3 * 65536) 0) =
    .ok ⟨true, some n, List.replicate (3 * 65536) 0⟩ := by
  obtain ⟨sizes, -, -, h⟩ := C67_maybe_partial .little false (clJunk 3) [1, 2, 0] List.range
    (List.replicate (3 * 65536) 0) 3 (by decide) List.length_replicate (by decide) (fun g => List.Perm.refl _)
    List.length_replicate (fun _ _ => List.length_replicate) (fun i hi n t _ => by
      right
      rw [part_zeros hi, List.take_replicate]
      decide)
  exact ⟨_, h⟩

/-! ## The size that is reported -/

theorem sum_of_all {c : Nat} : ∀ {l : List Nat}, (∀ n ∈ l, n = c) → l.sum = l.length * c := by
  intro l
  induction l with
  | nil => intro _; simp
  | cons a l ih =>
    intro h
    rw [List.sum_cons, ih fun n hn => h n (List.mem_cons_of_mem _ hn), h a List.mem_cons_self, List.length_cons, Nat.succ_mul,
      Nat.add_comm]

theorem part_same {c : List Byte} (hc : c.length = 65536) {num i : Nat} (hi : i < num) :
    (((List.replicate num c).flatten).drop (65536 * i)).take 65536 = c := by
  have hsplit : List.replicate num c = List.replicate i c ++ (c :: List.replicate (num - i - 1) c) := by
    rw [← List.replicate_succ, List.replicate_append_replicate]
    congr 1; omega
  have hl : ((List.replicate i c).flatten).length = 65536 * i := by
    rw [flatten_len (c := 65536) fun x hx => by rw [List.eq_of_mem_replicate hx, hc], List.length_replicate]
  rw [hsplit, List.flatten_append, List.flatten_cons, ← hl, List.drop_left, ← hc, List.take_left]

theorem length_same {c : List Byte} (hc : c.length = 65536) (num : Nat) : ((List.replicate num c).flatten).length = num * 65536 := by
  rw [flatten_len (c := 65536) fun x hx => by rw [List.eq_of_mem_replicate hx, hc], List.length_replicate, Nat.mul_comm]

/-- C67 is false: `*olen` is summed up in an `int`.  A file of 30391 chunks (2 GB) whose streams have 2147549624 bytes is
reported to be compressed to 2^64 - 2147417672 bytes. -/
theorem C67_olen_false : ∃ (inp : List Byte) (sizes : List Nat), inp.length = 30391 * 65536 ∧ sizes.length = 30391 ∧
    (∀ i < 30391, ∃ n b, sizes[i]? = some n ∧ optsw842Compress .little (64 + 65536 * i) (128 + 131072 * i) ojunk0 junk0
      ((inp.drop (65536 * i)).take 65536) (List.replicate 131072 0) = .ret none n b) ∧
    sizes.sum = 2147549624 ∧
    clBench .little .always false (clJunk 30391) (List.range 30391) List.range inp = .ok ⟨true, some (2 ^ 64 - 2147417672), inp⟩ := by
  have hcl : (counting 8192).length = 65536 := length_counting 8192
  obtain ⟨sizes, h1, h2, h3⟩ := C67_always_partial .little false (clJunk 30391) (List.range 30391) List.range
    ((List.replicate 30391 (counting 8192)).flatten) 30391 (by decide) (length_same hcl 30391) (List.Perm.refl _)
    (fun g => List.Perm.refl _) List.length_replicate
  have hall : ∀ n ∈ sizes, n = 70664 := by
    intro n hn
    obtain ⟨i, hi, hget⟩ := List.getElem_of_mem hn
    obtain ⟨n', b, h4, h5⟩ := h2 i (by omega)
    rw [part_same hcl (by omega)] at h5
    have h6 := C66_opt_exact .little ((clJunk 30391).ain + 65536 * i) ((clJunk 30391).aout + 131072 * i)
      ((clJunk 30391).opt i) ((clJunk 30391).sw i)
      (counting 8192) (List.replicate 131072 0) (counting_new 8192) (by rw [hcl]) (by intro h; rw [h] at hcl; simp at hcl)
      (.inr (by rw [hcl]; decide))
    simp only [hcl, List.length_replicate, h5] at h6
    rw [List.getElem?_eq_getElem hi, hget] at h4
    cases h4
    obtain ⟨b', h6⟩ := h6
    cases h6
    rfl
  have hsum : sizes.sum = 2147549624 := by rw [sum_of_all hall, h1]
  refine ⟨_, sizes, length_same hcl 30391, h1, h2, hsum, ?_⟩
  have hv : 2 ^ 64 - 2 ^ 32 + 2147549624 = 2 ^ 64 - 2147417672 := by decide
  rw [h3, accumulate_big (by omega) (by omega), hsum, hv]

theorem counting_start {g : Nat} (hg : 0 < g) : (counting g).take 1 = [0x00] := by
  cases g with
  | zero => exact absurd hg (by decide)
  | succ g =>
    unfold counting
    rw [Nat.mul_succ, List.range_succ_eq_map]
    rfl

/-- The hypotheses of `C67_inplace_partial` are met: four chunks that are stored as they are. -/
example : ∃ n, clBench .little .inplace true (clJunk 4) [3, 1, 2, 0] List.range ((List.replicate 4 (counting 8192)).flatten) =
    .ok ⟨true, some n, (List.replicate 4 (counting 8192)).flatten⟩ := by
  have hcl : (counting 8192).length = 65536 := length_counting 8192
  obtain ⟨sizes, -, -, h⟩ := C67_inplace_partial .little true (clJunk 4) [3, 1, 2, 0] List.range
    ((List.replicate 4 (counting 8192)).flatten) 4 (length_same hcl 4) (by decide) (fun g => List.Perm.refl _)
    (fun _ _ => List.length_replicate) (fun i hi n t h => by
      rw [part_same hcl hi] at h ⊢
      have h1 := C66_opt_lower_bound _ _ _ _ _ _ _ _ _ h
      obtain ⟨h2, h3⟩ := AllNew.counts (counting_new 8192) (by rw [hcl])
      rw [hcl] at h2 h3
      rw [if_neg (by rw [h2, h3] at h1; clear h; omega)]
      intro hm
      have h4 := counting_start (g := 8192) (by decide)
      rw [show (1 : Nat) = min 1 16 from rfl, ← List.take_take, hm] at h4
      revert h4
      decide)
  exact ⟨_, h⟩

/-! ## The whole program -/

theorem roomy_cl (e : Endian) (j : OptJunk) (jsw : CompJunk) (order : List Nat) (horder : order.Perm (List.range 256))
    (dev : Nat → Byte) : RoomyContract (fun a o src dst => optsw842Compress e a o j jsw src dst) (fun _ _ src dst => cl842Decompress e order dev src dst) := by
  refine ⟨fun a o o' src dst dec hl hd hdec => ?_⟩
  have h8 : src.length % 8 = 0 := by omega
  have hne : src ≠ [] := by intro hx; rw [hx] at hl; simp at hl
  obtain ⟨n, b, h1, h2⟩ := C12_opt_worst_case e a o j jsw src dst h8 hne (by omega) (.inr (by omega))
  obtain ⟨h3, h4, -, h5, -⟩ := C07_opt_length_contract e e a o a o j j jsw jsw src dst dst n n b b Iff.rfl h1 h1
  have htl : (b.take n).length = n := by rw [List.length_take]; omega
  have h6 := C56_wrapper_partial e order horder dev (b.take n) dec src (by intro h; rw [h] at htl; simp at htl; omega) (by omega)
    (by omega) (C26_opt_hw_compatible e a o j jsw src dst n b h1).2 (by omega)
  rw [List.drop_of_length_le (by simp; omega), List.map_nil, List.append_nil] at h6
  exact ⟨n, b, h1, h5, h6⟩

theorem clRun_ok (e : Endian) (fmt : ClFormat) (sh : Bool) (J : ClJunk) (sched : List Nat → List Nat) (order : Nat → List Nat)
    (horder : ∀ g, (order g).Perm (List.range g)) (inp : List Byte) (hl : inp.length = 32 ∨ ∃ k, 0 < k ∧ inp.length = k * 65536)
    (hb : ∀ num, 1 < num → inp.length = num * 65536 → ∃ n,
      clBench e fmt sh J (sched (List.range num)) order inp = .ok ⟨true, some n, inp⟩) :
    compdecompCl.run e fmt sh J sched order inp = .ok true := by
  unfold compdecompCl.run
  by_cases hgt : inp.length > sampleChunk
  · rw [if_pos hgt]
    obtain ⟨k, -, hk⟩ : ∃ k, 0 < k ∧ inp.length = k * 65536 := by
      rcases hl with hl | hl
      · exact absurd hgt (by rw [hl]; decide)
      · exact hl
    have hkd : inp.length / sampleChunk = k := by rw [hk]; exact Nat.mul_div_cancel _ (by decide)
    have hk1 : 1 < k := by
      have hgt : inp.length > 65536 := hgt
      omega
    obtain ⟨n, h⟩ := hb k hk1 hk
    rw [hkd]
    simp only [h, bind, BRes.bind]
  · rw [if_neg hgt]
    have hle : inp.length = 32 ∨ inp.length = 65536 := by
      rcases hl with hl | ⟨k, h0, hk⟩
      · exact .inl hl
      · right
        have h1 : ¬ inp.length > 65536 := hgt
        have h2 : 1 * 65536 ≤ k * 65536 := Nat.mul_le_mul_right _ h0
        rw [Nat.one_mul] at h2
        omega
    unfold clImpl
    rw [simpleTest_ok (roomy_cl e (J.opt 0) (J.sw 0) (order 256) (horder 256) _) J.ain J.aout 0 1 inp hle]
    rfl

/-- C67: run on any readable file that is not empty, the OpenCL sample in its default format ends with `EXIT_SUCCESS`. -/
theorem C67_program_partial (e : Endian) (sh : Bool) (J : ClJunk) (sched : List Nat → List Nat) (order : Nat → List Nat)
    (hs : ∀ l, (sched l).Perm l) (horder : ∀ g, (order g).Perm (List.range g)) (file : List Byte) (hne : file ≠ [])
    (hlen : file.length < 2 ^ 63) (hdev : J.dev.length = (file.length + 65535) / 65536 * 65536) :
    compdecompCl e .always sh J sched order (some (some file)) = .ok true := by
  have hm : nextMultipleOfChunkSize file.length sampleChunk = (file.length + 65535) / 65536 * 65536 := nextMultiple_eq hlen
  have hpos : 0 < file.length := List.length_pos_iff.2 hne
  obtain ⟨inp, hw⟩ := writeBytes_some (m := List.replicate ((file.length + 65535) / 65536 * 65536) 0) (bs := file) (i := 0)
    (by rw [List.length_replicate]; omega)
  have hl : inp.length = (file.length + 65535) / 65536 * 65536 := by
    rw [(writeBytes_get hw).1, List.length_replicate]
  show BRes.bind (readFile file sampleChunk) _ = _
  unfold readFile
  rw [hm, hw]
  refine clRun_ok e .always sh J sched order horder inp (.inr ⟨_, Nat.div_pos (by omega) (by decide), hl⟩) ?_
  intro num hnum hn
  obtain ⟨sizes, -, -, h⟩ := C67_always_partial e sh J (sched (List.range num)) order inp num (by omega) hn (hs _) horder
    (by rw [hdev, ← hl, hn])
  exact ⟨_, h⟩

/-- C67: without an argument it succeeds as well, in every format. -/
theorem C67_program_test_string (e : Endian) (fmt : ClFormat) (sh : Bool) (J : ClJunk) (sched : List Nat → List Nat)
    (order : Nat → List Nat) (horder : ∀ g, (order g).Perm (List.range g)) :
    compdecompCl e fmt sh J sched order none = .ok true := by
  show compdecompCl.run e fmt sh J sched order testString = .ok true
  refine clRun_ok e fmt sh J sched order horder testString (.inl rfl) ?_
  intro num h1 h2
  have : testString.length = 32 := rfl
  omega

/-! ## The marker -/

/-- A chunk that begins with the marker and a size of 0 and does not compress -/
def markedChunk : List Byte := (marker ++ List.replicate 8 0) ++ counting 8189

theorem length_marked : markedChunk.length = 65536 := by
  unfold markedChunk
  rw [List.length_append, length_counting]; rfl

theorem bound_after {e : Endian} {ain aout : Nat} {j : OptJunk} {jsw : CompJunk} {x tmp p : List Byte} {n q g : Nat} {b : List Byte}
    (hx : x = p ++ counting g) (hp : p.length = 8 * q) (h : optsw842Compress e ain aout j jsw x tmp = .ret none n b) :
    16 * (4 * g - 1024) + 5 * (g - 256) + 37 ≤ 8 * n := by
  have h1 := C66_opt_lower_bound e ain aout j jsw x tmp n b h
  obtain ⟨h2, h3⟩ := counting_after_counts (g := g) hp
  rw [← hx] at h2 h3
  omega

theorem marked_big {e : Endian} {ain aout : Nat} {j : OptJunk} {jsw : CompJunk} {tmp : List Byte} {n : Nat} {b : List Byte}
    (h : optsw842Compress e ain aout j jsw markedChunk tmp = .ret none n b) : 65512 < n := by
  have h1 := bound_after (q := 3) markedChunk.eq_1 (by decide) h
  clear h
  omega

theorem item_marked (e : Endian) (more buf : List Byte) :
    oclItem e .maybe 65536 (markedChunk ++ more) buf none none = .ret none 65536 buf := by
  have hl := length_marked
  have ht : (markedChunk ++ more).take 16 = marker := by
    unfold markedChunk
    rw [List.append_assoc, List.append_assoc, List.take_append_of_le_length (by decide)]
    rfl
  have hz : load64 e (markedChunk ++ more) 16 = some 0#64 := by
    obtain ⟨a, ha, -⟩ := load64_ok e (m := markedChunk ++ more) (i := 16) (by rw [List.length_append]; omega)
    obtain ⟨z, hz, -⟩ := load64_ok e (m := List.replicate 8 0#8) (i := 0) (by simp)
    have h0 : load64 e (List.replicate 8 0#8) 0 = some 0#64 := by cases e <;> decide
    rw [h0] at hz
    cases hz
    rw [ha]
    congr 1
    refine (load64_slice (by rw [List.length_append]; omega) (by simp) ha h0).2 ?_
    unfold markedChunk
    rw [List.append_assoc, List.append_assoc, List.drop_append_of_le_length (by decide),
      List.drop_of_length_le (l := marker) (by decide), List.nil_append, List.take_append_of_le_length (by simp)]
    rfl
  unfold oclItem
  simp only [if_true, Option.getD_some]
  rw [notMarked_eq e (by rw [List.length_append]; omega), ht]
  simp only [ne_eq, not_true_eq_false, decide_false, hz, if_true]

/-- C67 is false for `MAYBE_COMPRESSED_CHUNKS`: a file of two incompressible chunks that begin with the marker is not
restored, and the program reports failure. -/
theorem C67_maybe_false : ∃ file : List Byte, file.length = 131072 ∧
    compdecompCl .little .maybe false (clJunk 2) id List.range (some (some file)) = .ok false := by
  have hcl := length_marked
  obtain ⟨inp, hinp⟩ : ∃ inp, inp = (List.replicate 2 markedChunk).flatten := ⟨_, rfl⟩
  have hin : inp.length = 2 * 65536 := by rw [hinp]; exact length_same hcl 2
  have hpart : ∀ i < 2, part 65536 inp i = markedChunk := fun i hi => by rw [hinp]; exact part_same hcl hi
  refine ⟨inp, hin, ?_⟩
  obtain ⟨m, h1, h2, h3, hq⟩ := packed_loop .little (fmt := .maybe) (by decide) (clJunk 2) (List.range 2) hin (List.Perm.refl _)
    (fun _ _ => List.length_replicate)
  have hout : m.out = inp := by
    rw [← parts_flatten h2, ← parts_flatten hin]
    congr 1
    apply List.map_congr_left
    intro i hi
    have hi := List.mem_range.1 hi
    obtain ⟨n, t, hc, h⟩ := hq i hi
    rcases h with ⟨-, h⟩ | ⟨h, -⟩
    · exact h
    · have hc := hc.1
      rw [hpart i hi] at hc
      exact absurd (marked_big hc) (by omega)
  have hdev : (clJunk 2).dev = [] ++ (([List.replicate 65536 0, List.replicate 65536 0] : List (List Byte)).flatten ++ []) := by
    show List.replicate (2 * 65536) (0 : Byte) = _
    rw [List.nil_append, List.append_nil, List.flatten_cons, List.flatten_cons, List.flatten_nil, List.append_nil,
      List.replicate_append_replicate]
  obtain ⟨out, l1, l2⟩ := oclLaunch_from .little .maybe 65536 65536 0 0 m.out none none
    [List.replicate 65536 0, List.replicate 65536 0] [List.replicate 65536 0, List.replicate 65536 0]
    (by intro x hx; simp only [List.mem_cons, List.not_mem_nil, or_false, or_self] at hx; rw [hx, List.length_replicate]) rfl
    (by intro x hx; simp only [List.mem_cons, List.not_mem_nil, or_false, or_self] at hx; rw [hx, List.length_replicate]) (by decide)
    (fun i x y hx hy => by
      have hi : i < 2 := (List.getElem?_eq_some_iff.1 hx).1
      have hxy : x = List.replicate 65536 0 ∧ y = List.replicate 65536 0 := by
        have : i = 0 ∨ i = 1 := by omega
        rcases this with rfl | rfl
        · cases hx; cases hy; exact ⟨rfl, rfl⟩
        · cases hx; cases hy; exact ⟨rfl, rfl⟩
      rw [if_neg (by decide)]
      have h8 : 8 * (0 / 8 + 65536 / 8 * i) = 65536 * i := by omega
      rw [h8]
      refine ⟨by omega, none, none, rfl, rfl, fun buf hb hbt => ?_⟩
      have hp := hpart i hi
      have hd : m.out.drop (65536 * i) = markedChunk ++ m.out.drop (65536 * i + 65536) := by
        rw [← hp, hout]
        unfold part
        rw [← List.drop_drop, List.take_append_drop]
      rw [hd, item_marked, hxy.1, ← hxy.2, ← hbt, List.take_append_drop])
    none (by intro _ h; cases h) (List.range 256) (List.Perm.refl _) [] [] rfl
  rw [← hdev] at l1
  have hm : nextMultipleOfChunkSize inp.length sampleChunk = 131072 := by rw [hin]; decide
  have hw : writeBytes (List.replicate 131072 0) 0 inp = some inp := by
    unfold writeBytes
    rw [if_pos (by rw [List.length_replicate, hin]), List.take_zero, List.nil_append,
      List.drop_of_length_le (by rw [List.length_replicate, hin]), List.append_nil]
  have hlen : (([List.replicate 65536 0, List.replicate 65536 0] : List (List Byte)).flatten).length = 131072 := by
    simp only [List.flatten_cons, List.flatten_nil, List.length_append, List.length_replicate, List.length_nil]
  have hread : ∃ back, readBytes (out.buf.take (List.replicate inp.length (0 : Byte)).length) 0 inp.length = some back ∧ inp ≠ back := by
    rw [l2, List.nil_append, List.append_nil, List.length_replicate, hin, List.take_of_length_le (by omega)]
    unfold readBytes
    rw [if_pos (by omega), List.drop_zero, List.take_of_length_le (by omega)]
    refine ⟨_, rfl, fun h => ?_⟩
    have h1 : inp.take 1 = [0xbe] := by
      rw [hinp]
      rfl
    rw [h] at h1
    revert h1
    rw [List.flatten_cons, List.take_append_of_le_length (by rw [List.length_replicate]; decide), List.take_replicate]
    decide
  obtain ⟨back, hb1, hb2⟩ := hread
  have hnum' : inp.length / sampleChunk = 2 := by rw [hin]; decide
  have hstr : clStride .maybe = 65536 := rfl
  have hhost : hostNumChunks m.out.length 65536 = 2 := by rw [h2]; decide
  have hgs : oclGlobalSize 2 = 256 := rfl
  have hbench : ∃ n, clBench .little .maybe false (clJunk 2) (List.range 2) List.range inp =
      .ok ⟨false, some n, out.buf.take (List.replicate inp.length (0 : Byte)).length⟩ := by
    unfold clBench
    simp only [hnum', hstr, h1, bind, BRes.bind, hhost]
    unfold clHostDecompress
    simp only [hhost, reduceCtorEq, if_false, decide_false, Bool.false_eq_true, false_and, true_and, hgs]
    rw [if_neg (by rw [List.length_replicate]; omega), if_neg (by omega)]
    have l1' : oclLaunch .little .maybe sampleChunk 65536 0 0 m.out none none 2 none (List.range 256) (clJunk 2).dev = some out := l1
    simp only [l1', BRes.access, bind, BRes.bind, hb1]
    exact ⟨_, by rw [decide_eq_false hb2]⟩
  obtain ⟨n, hbench⟩ := hbench
  show BRes.bind (readFile inp sampleChunk) _ = _
  unfold readFile
  rw [hm, hw]
  show compdecompCl.run .little .maybe false (clJunk 2) id List.range inp = .ok false
  unfold compdecompCl.run
  rw [if_pos (by rw [hin]; decide), hnum']
  simp only [id, hbench, bind, BRes.bind]

end Lib842.Props
