import Verif.Proofs.Cuda
import Verif.Props.Ring
import Verif.Props.Opt
/-!
# Property theorems for the CUDA decompressor (C22, C47)
-/

namespace Lib842.Props
open Spec

/-! ## C47: the CUDA decoder on valid streams -/

/-- C47, one thread: every hardware stream at the beginning of the input object is decoded to
the data it denotes, without undefined behaviour; nothing after the decoded data is touched. -/
theorem C47_cuda_thread (inp buf d : List Byte) (n : Nat) (h8 : n % 8 = 0) (hin : n ≤ inp.length)
    (hdec : HwDecodes (inp.take n) d) (hb : d.length ≤ buf.length) :
    cudaThread inp buf = some (d ++ buf.drop d.length) :=
  cudaThread_prefix h8 hin hdec hb

example : cudaThread (exOut8 ++ [0xff, 0xff]) (List.replicate 33 0xaa) = some (exIn8 ++ [0xaa]) := by
  have h : optsw842Decompress .little 0 0 exOut8 (List.replicate 33 0xaa) = .ret none 32 (exIn8 ++ [0xaa]) :=
    ex_opt_decompress
  have hd := (C14_opt_success_is_decoding .little 0 0 exOut8 _ 32 _ (by decide) h).1
  have hd : HwDecodes ((exOut8 ++ [0xff, 0xff]).take 24) exIn8 := hd
  exact C47_cuda_thread _ (List.replicate 33 0xaa) exIn8 24 rfl (by decide) hd (by decide)

/-- A launch of up to 2^25 threads: thread `i` finds a stream for `xs[i]` in slot `i` modulo 2^24 and leaves
`xs[i]` at the start of its 1024-byte chunk; the rest of every chunk and what follows the last
chunk keep their contents.  The order in which the threads run does not matter. -/
theorem C47_cuda_launch_wraps (inp post : List Byte) (xs : List (List Byte)) (hx : ∀ x ∈ xs, x.length ≤ 1024)
    (hin : ∀ (i : Nat) (x : List Byte), xs[i]? = some x → ∃ n, n % 8 = 0 ∧ 2048 * (i % 2 ^ 24) + n ≤ inp.length ∧
      HwDecodes ((inp.drop (2048 * (i % 2 ^ 24))).take n) x)
    (hlim : xs.length ≤ 2 ^ 25) (order : List Nat) (hord : order.Perm (List.range xs.length)) (cs : List (List Byte))
    (hcl : cs.length = xs.length) (hc : ∀ c ∈ cs, c.length = 1024) :
    cudaLaunch inp order (cs.flatten ++ post) =
      some ((List.zipWith (fun x c => x ++ c.drop x.length) xs cs).flatten ++ post) := by
  obtain ⟨cs', h1, h2, h3⟩ := cudaLaunch_ok inp post xs hx hlim hin order (hord.nodup_iff.2 List.nodup_range)
    (fun i hi => List.mem_range.1 (hord.mem_iff.1 hi)) cs hcl hc
  rw [h1]
  congr 3
  apply List.ext_getElem?
  intro j
  rw [List.getElem?_zipWith]
  by_cases hj : j < xs.length
  · have hxj : xs[j]? = some xs[j] := List.getElem?_eq_getElem hj
    have hcj : cs[j]? = some (cs[j]'(by omega)) := List.getElem?_eq_getElem _
    rw [h3 j _ _ hxj hcj, if_pos (hord.mem_iff.2 (List.mem_range.2 hj)), hxj, hcj]
    rfl
  · rw [List.getElem?_eq_none (by omega), List.getElem?_eq_none (by omega)]

/-- C47, a launch of up to 2^24 threads (16 GiB of output): thread `i` finds a stream for `xs[i]` in its 2048-byte slot and leaves
`xs[i]` at the start of its 1024-byte chunk; the rest of every chunk and what follows the last
chunk keep their contents.  The order in which the threads run does not matter. -/
theorem C47_cuda_launch_partial (inp post : List Byte) (xs : List (List Byte)) (hx : ∀ x ∈ xs, x.length ≤ 1024)
    (hin : ∀ (i : Nat) (x : List Byte), xs[i]? = some x → ∃ n, n % 8 = 0 ∧ 2048 * i + n ≤ inp.length ∧
      HwDecodes ((inp.drop (2048 * i)).take n) x)
    (hlim : xs.length ≤ 2 ^ 24) (order : List Nat) (hord : order.Perm (List.range xs.length)) (cs : List (List Byte))
    (hcl : cs.length = xs.length) (hc : ∀ c ∈ cs, c.length = 1024) :
    cudaLaunch inp order (cs.flatten ++ post) =
      some ((List.zipWith (fun x c => x ++ c.drop x.length) xs cs).flatten ++ post) :=
  C47_cuda_launch_wraps inp post xs hx (fun i x hi => by
    rw [Nat.mod_eq_of_lt (by have := (List.getElem?_eq_some_iff.1 hi).1; omega)]
    exact hin i x hi) (by omega) order hord cs hcl hc

/-- C47 is false for larger launches: thread 2^24 decodes the stream of chunk 0 instead of its own, so that a launch of
2^24 to 2^25 threads over full chunks does not restore the data unless these two chunks are equal. -/
theorem C47_large_launch_false (inp buf post : List Byte) (xs : List (List Byte)) (hx : ∀ x ∈ xs, x.length = 1024)
    (hin : ∀ (i : Nat) (x : List Byte), xs[i]? = some x → ∃ n, n % 8 = 0 ∧ 2048 * i + n ≤ inp.length ∧
      HwDecodes ((inp.drop (2048 * i)).take n) x)
    (hgt : 2 ^ 24 < xs.length) (hlim : xs.length ≤ 2 ^ 25) (hne : xs[2 ^ 24]? ≠ xs[0]?) (order : List Nat)
    (hord : order.Perm (List.range xs.length)) (hbuf : buf = List.replicate (1024 * xs.length) 0) :
    cudaLaunch inp order (buf ++ post) ≠ some (xs.flatten ++ post) := by
  have hxl : ((List.range xs.length).map fun i => xs.getD (i % 2 ^ 24) []).length = xs.length := by
    rw [List.length_map, List.length_range]
  have hget : ∀ i < xs.length, ((List.range xs.length).map fun i => xs.getD (i % 2 ^ 24) [])[i]? = xs[i % 2 ^ 24]? := by
    intro i hi
    have hm : i % 2 ^ 24 < xs.length := Nat.lt_of_le_of_lt (Nat.mod_le _ _) hi
    rw [List.getElem?_map, List.getElem?_range hi]
    simp only [Option.map_some]
    rw [List.getD_eq_getElem?_getD, List.getElem?_eq_getElem hm]
    rfl
  have hys : ∀ y ∈ (List.range xs.length).map fun i => xs.getD (i % 2 ^ 24) [], y.length = 1024 := by
    intro y hy
    obtain ⟨i, hi⟩ := List.mem_iff_getElem?.1 hy
    have hil : i < xs.length := by have := (List.getElem?_eq_some_iff.1 hi).1; rwa [hxl] at this
    rw [hget i hil] at hi
    exact hx y (List.mem_of_getElem? hi)
  have hw := C47_cuda_launch_wraps inp post ((List.range xs.length).map fun i => xs.getD (i % 2 ^ 24) [])
    (fun y hy => by rw [hys y hy])
    (fun i y hi => by
      have hil : i < xs.length := by have := (List.getElem?_eq_some_iff.1 hi).1; rwa [hxl] at this
      rw [hget i hil] at hi
      exact hin _ y hi)
    (by rw [hxl]; exact hlim) order (by rw [hxl]; exact hord) (List.replicate xs.length (List.replicate 1024 0))
    (by rw [hxl, List.length_replicate]) (fun c hc => by rw [(List.mem_replicate.1 hc).2, List.length_replicate])
  have hz : List.zipWith (fun x c => x ++ c.drop x.length) ((List.range xs.length).map fun i => xs.getD (i % 2 ^ 24) [])
      (List.replicate xs.length (List.replicate 1024 (0 : Byte))) = (List.range xs.length).map fun i => xs.getD (i % 2 ^ 24) [] := by
    apply List.ext_getElem?
    intro i
    rw [List.getElem?_zipWith]
    by_cases hi : i < xs.length
    · have he : ((List.range xs.length).map fun i => xs.getD (i % 2 ^ 24) [])[i]? =
          some (((List.range xs.length).map fun i => xs.getD (i % 2 ^ 24) [])[i]'(by rw [hxl]; exact hi)) :=
        List.getElem?_eq_getElem _
      have hl := hys _ (List.mem_of_getElem? he)
      rw [he, List.getElem?_replicate, if_pos hi]
      simp only
      rw [hl, List.drop_of_length_le (by rw [List.length_replicate]), List.append_nil]
    · rw [List.getElem?_eq_none (by rw [hxl]; omega)]
  rw [hz, List.flatten_replicate_replicate, Nat.mul_comm, ← hbuf] at hw
  rw [hw]
  intro he
  have he := List.append_cancel_right (Option.some.inj he)
  have hslice : ∀ (zs : List (List Byte)), (∀ z ∈ zs, z.length = 1024) → ∀ k, k < zs.length →
      zs[k]? = some ((zs.flatten.drop (1024 * k)).take 1024) := by
    intro zs
    induction zs with
    | nil => intro _ k hk; cases hk
    | cons z zs ih =>
      intro hz k hk
      have hz0 := hz z (List.mem_cons_self ..)
      cases k with
      | zero =>
        rw [List.flatten_cons, Nat.mul_zero, List.drop_zero, List.take_append_of_le_length (by omega),
          List.take_of_length_le (by omega)]
        rfl
      | succ k =>
        rw [List.getElem?_cons_succ, ih (fun y hy => hz y (List.mem_cons_of_mem _ hy)) k (Nat.lt_of_succ_lt_succ hk),
          List.flatten_cons, Nat.mul_succ, Nat.add_comm, ← List.drop_drop, List.drop_append_of_le_length (by omega),
          List.drop_of_length_le (l := z) (by omega), List.nil_append]
  apply hne
  rw [hslice xs hx (2 ^ 24) hgt, ← he, ← hslice _ hys (2 ^ 24) (by rw [hxl]; exact hgt), hget _ hgt, Nat.mod_self]

/-- For all full chunks there is an input for the kernel. -/
theorem cuda_slots_exist : ∀ xs : List (List Byte), (∀ x ∈ xs, x.length = 1024) → ∃ inp : List Byte,
    ∀ (i : Nat) (x : List Byte), xs[i]? = some x → ∃ n, n % 8 = 0 ∧ 2048 * i + n ≤ inp.length ∧
      HwDecodes ((inp.drop (2048 * i)).take n) x
  | [], _ => ⟨[], fun i x h => by cases h⟩
  | x :: xs, hx => by
    obtain ⟨inp, hi⟩ := cuda_slots_exist xs fun y hy => hx y (List.mem_cons_of_mem _ hy)
    have hx0 := hx x (List.mem_cons_self ..)
    have hne : x ≠ [] := by rintro rfl; cases hx0
    obtain ⟨n, b, h1, -⟩ := C12_opt_worst_case .little 0 0 ojunk0 junk0 x (List.replicate 2048 0) (by omega) hne
      (by rw [List.length_replicate, hx0]; decide) (.inl ⟨rfl, rfl⟩)
    obtain ⟨-, h2, -, h3, -⟩ := C07_opt_length_contract .little .little 0 0 0 0 ojunk0 ojunk0 junk0 junk0 x _ _ n n b b Iff.rfl h1 h1
    obtain ⟨rc, n', b', h4, h5⟩ := (C04_opt_compress_in_bounds .little 0 0 ojunk0 junk0 x (List.replicate 2048 0)).2.2 hne
    rw [h1] at h4
    cases h4
    rw [List.length_replicate] at h5
    have hd := (C26_opt_hw_compatible .little 0 0 ojunk0 junk0 x _ n b h1).2
    refine ⟨b ++ inp, fun i y hy => ?_⟩
    cases i with
    | zero =>
      cases hy
      refine ⟨n, h2, by rw [List.length_append]; omega, ?_⟩
      rw [Nat.mul_zero, List.drop_zero, List.take_append_of_le_length h3]
      exact hd
    | succ i =>
      rw [List.getElem?_cons_succ] at hy
      obtain ⟨m, g1, g2, g3⟩ := hi i y hy
      refine ⟨m, g1, by rw [List.length_append]; omega, ?_⟩
      rw [Nat.mul_succ, Nat.add_comm, ← List.drop_drop, List.drop_append_of_le_length (by omega),
        List.drop_of_length_le (l := b) (by omega), List.nil_append]
      exact g3

/-- 2^24 chunks of zeros and one of ones are not restored. -/
example : ∃ inp : List Byte, ∀ xs, xs = List.replicate (2 ^ 24) (List.replicate 1024 (0 : Byte)) ++ [List.replicate 1024 1] →
    cudaLaunch inp (List.range xs.length) (List.replicate (1024 * xs.length) 0 ++ []) ≠ some (xs.flatten ++ []) := by
  have hl : (List.replicate (2 ^ 24) (List.replicate 1024 (0 : Byte))).length = 2 ^ 24 := List.length_replicate
  have hx : ∀ x ∈ List.replicate (2 ^ 24) (List.replicate 1024 (0 : Byte)) ++ [List.replicate 1024 1], x.length = 1024 := by
    intro x hx
    rcases List.mem_append.1 hx with h | h
    · rw [(List.mem_replicate.1 h).2, List.length_replicate]
    · rw [List.mem_singleton.1 h, List.length_replicate]
  obtain ⟨inp, hin⟩ := cuda_slots_exist _ hx
  refine ⟨inp, fun xs hxs => ?_⟩
  rw [← hxs] at hx hin
  have hlen : xs.length = 2 ^ 24 + 1 := by rw [hxs, List.length_append, hl]; rfl
  refine C47_large_launch_false inp _ [] xs hx hin (by rw [hlen]; exact Nat.lt_succ_self _) (by rw [hlen]; decide) ?_ _
    (List.Perm.refl _) rfl
  rw [hxs, List.getElem?_append_right (Nat.le_of_eq hl), hl, Nat.sub_self,
    List.getElem?_append_left (by rw [hl]; exact Nat.two_pow_pos _), List.getElem?_replicate, if_pos (Nat.two_pow_pos _)]
  intro h
  have h := congrArg (fun o : Option (List Byte) => o.bind fun l => l[0]?) h
  simp only [List.getElem?_cons_zero, Option.bind_some, List.getElem?_replicate] at h
  exact absurd h (by decide)

/-- C47, a launch over full chunks restores the data. -/
theorem C47_cuda_launch_full_partial (inp buf post : List Byte) (xs : List (List Byte)) (hx : ∀ x ∈ xs, x.length = 1024)
    (hin : ∀ (i : Nat) (x : List Byte), xs[i]? = some x → ∃ n, n % 8 = 0 ∧ 2048 * i + n ≤ inp.length ∧
      HwDecodes ((inp.drop (2048 * i)).take n) x)
    (hlim : xs.length ≤ 2 ^ 24) (order : List Nat) (hord : order.Perm (List.range xs.length)) (hbuf : buf.length = 1024 * xs.length) :
    cudaLaunch inp order (buf ++ post) = some (xs.flatten ++ post) := by
  have hsplit : ∀ (n : Nat) (b : List Byte), b.length = 1024 * n →
      ∃ cs : List (List Byte), cs.flatten = b ∧ cs.length = n ∧ ∀ c ∈ cs, c.length = 1024 := by
    intro n
    induction n with
    | zero => intro b hb; exact ⟨[], (List.length_eq_zero_iff.1 (by omega)).symm, rfl, by simp⟩
    | succ n ih =>
      intro b hb
      obtain ⟨cs, h1, h2, h3⟩ := ih (b.drop 1024) (by rw [List.length_drop]; omega)
      refine ⟨b.take 1024 :: cs, by rw [List.flatten_cons, h1, List.take_append_drop], by simp [h2], ?_⟩
      intro c hc
      rcases List.mem_cons.1 hc with rfl | h
      · rw [List.length_take]; omega
      · exact h3 c h
  obtain ⟨cs, rfl, hcl, hc⟩ := hsplit _ _ hbuf
  rw [C47_cuda_launch_partial inp post xs (fun x h => (hx x h).le) hin hlim order hord cs hcl hc]
  congr 3
  apply List.ext_getElem?
  intro j
  rw [List.getElem?_zipWith]
  by_cases hj : j < xs.length
  · have hxj : xs[j]? = some xs[j] := List.getElem?_eq_getElem hj
    have hcj : cs[j]? = some (cs[j]'(by omega)) := List.getElem?_eq_getElem _
    rw [hxj, hcj]
    simp only
    rw [List.drop_of_length_le (by rw [hx _ (List.getElem_mem hj), hc _ (List.getElem_mem _)]), List.append_nil]
  · rw [List.getElem?_eq_none (by omega), List.getElem?_eq_none (by omega)]

/-- C47, with the compressor in front: 1024-byte chunks, each compressed by
`optsw842_compress` into a 2048-byte slot (this always succeeds, C12), are restored by a
launch. -/
theorem C47_cuda_round_trip_partial (xs slots : List (List Byte)) (buf post : List Byte)
    (hs : ∀ s ∈ slots, s.length = 2048)
    (hcomp : List.Forall₂ (fun x s => x.length = 1024 ∧ ∃ e ain aout j jsw old n,
      optsw842Compress e ain aout j jsw x old = .ret none n s) xs slots)
    (hlim : xs.length ≤ 2 ^ 24) (order : List Nat) (hord : order.Perm (List.range xs.length)) (hbuf : buf.length = 1024 * xs.length) :
    cudaLaunch slots.flatten order (buf ++ post) = some (xs.flatten ++ post) := by
  have hxs : ∀ (i : Nat) (x : List Byte), xs[i]? = some x → ∃ s, slots[i]? = some s ∧ x.length = 1024 ∧
      ∃ e ain aout j jsw old n, optsw842Compress e ain aout j jsw x old = .ret none n s := by
    clear hord hbuf hs hlim
    induction hcomp with
    | nil => intro i x h; simp at h
    | @cons a b l1 l2 h1 _ ih =>
      intro i x h
      cases i with
      | zero =>
        simp only [List.getElem?_cons_zero, Option.some.injEq] at h
        subst h
        exact ⟨b, rfl, h1⟩
      | succ i => exact ih i x (by simpa using h)
  refine C47_cuda_launch_full_partial _ buf post xs ?_ ?_ hlim order hord hbuf
  · intro x hx
    obtain ⟨i, hi⟩ := List.mem_iff_getElem?.1 hx
    exact (hxs i x hi).choose_spec.2.1
  · intro i x hi
    obtain ⟨s, hsi, hxl, e, ain, aout, j, jsw, old, n, hc⟩ := hxs i x hi
    obtain ⟨-, hd⟩ := C26_opt_hw_compatible e ain aout j jsw x old n s hc
    obtain ⟨-, hn8, -, hns, -⟩ := C07_opt_length_contract e e ain aout ain aout j j jsw jsw x old old n n s s Iff.rfl hc hc
    have hil : i < slots.length := (List.getElem?_eq_some_iff.1 hsi).1
    have hsl := hs s (List.mem_of_getElem? hsi)
    have hfl := flatten_len hs
    have hle : 2048 * i + 2048 ≤ slots.flatten.length := by
      rw [hfl, ← Nat.mul_succ]; exact Nat.mul_le_mul_left _ hil
    refine ⟨n, hn8, by omega, ?_⟩
    have hset := flatten_set hs hil s
    have hsc : slots.set i s = slots := by
      apply List.ext_getElem?
      intro k
      rw [List.getElem?_set]
      split
      · subst_vars; rw [hsi]
      · rfl
    rw [hsc] at hset
    have : slots.flatten.drop (2048 * i) = s ++ slots.flatten.drop (2048 * i + 2048) := by
      have h3 : slots.flatten.take (2048 * i) ++ slots.flatten.drop (2048 * i) =
          slots.flatten.take (2048 * i) ++ (s ++ slots.flatten.drop (2048 * i + 2048)) := by
        rw [hset, List.take_append_drop]
      exact List.append_cancel_left h3
    rw [this, List.take_append_of_le_length (by omega)]
    exact hd

/-- The streams of two chunks that only fill 8 bytes each: a zeros op, the end marker. -/
def exZero8 : List Byte := [0xe7, 0x80, 0, 0, 0, 0, 0, 0]

/-- Two threads, running in descending order; what follows the chunks is kept. -/
example : cudaLaunch (exZero8 ++ List.replicate 2040 0xee ++ exZero8) [1, 0] (List.replicate 1033 0xaa) =
    some (List.replicate 8 0 ++ List.replicate 1016 0xaa ++ List.replicate 8 0 ++ [0xaa]) := by
  decide +kernel

/-! ## C22 for the CUDA decoder -/

/-- C22 for `get_index` of the CUDA decoder: a written slot resolves to the offset it denotes,
with the ring sizes of `fifo_sizes`. -/
theorem C22_cuda_index_partial (p : CudaP) (size i o : Nat) (hs : size = 2 ∨ size = 4 ∨ size = 8)
    (hi : i < 2 ^ indexBits size) (h : RingRef (8 * p.out) size i o) :
    cudaFifoSizes[size]? = some (size * 2 ^ indexBits size) ∧
    cudaGetIndex p size i (size * 2 ^ indexBits size) = o := by
  refine ⟨?_, cudaGetIndex_eq hs hi h⟩
  rcases hs with rfl | rfl | rfl <;> rfl

example : RingRef (8 * 125) 2 10 532 := by refine ⟨by decide, by decide, by decide⟩

/-- C22 is false for the CUDA decoder as far as unwritten slots go: a reference to one is not
rejected, the stream is "decoded" to whatever the output buffer held before. -/
theorem C22_cuda_rejects_false :
    ∃ inp : List Byte, ¬ (∃ d, HwDecodes inp d) ∧
      cudaThread inp (List.replicate 8 0xaa) = some (List.replicate 8 0xaa) ∧
      cudaThread inp (List.replicate 8 0x55) = some (List.replicate 8 0x55) := by
  refine ⟨[0xc8, 0x07, 0x80, 0, 0, 0, 0, 0], ?_, by decide +kernel, by decide +kernel⟩
  rintro ⟨d, ops, rest, hx, -, hb⟩
  have hb2 : bytesBits [0xc8, 0x07, 0x80, 0, 0, 0, 0, 0] = (Op.template 0x19 [.index 8 0]).bits ++
      (bytesBits [0xc8, 0x07, 0x80, 0, 0, 0, 0, 0]).drop 13 := by decide
  rw [hb2, List.append_assoc] at hb
  have hv : (Op.template 0x19 [.index 8 0]).Valid := by
    refine ⟨rfl, ?_⟩
    intro a ha
    rw [List.mem_singleton] at ha
    subst ha
    show 0 < 2 ^ indexBits 8
    decide
  cases ops with
  | nil =>
    simp only [List.flatMap_nil, List.nil_append, trailer, List.append_assoc] at hb
    exact Dec.end_ne_op hv hb.symm
  | cons op ops =>
    rw [List.flatMap_cons, List.append_assoc] at hb
    obtain ⟨rfl, -⟩ := op_bits_inj hv (hx.1 op List.mem_cons_self) hb
    cases hx.2 with
    | cons h1 _ =>
      cases h1 with
      | template h2 =>
        cases h2 with
        | cons h3 _ =>
          cases h3 with
          | index h4 =>
            have := h4.2.1
            simp at this

end Lib842.Props
