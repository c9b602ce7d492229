import Verif.Proofs.CudaSample
import Verif.Props.StreamBlock
/-!
# Property theorems for the CUDA sample (C77)
-/

namespace Lib842.Props
open Spec

/-- The contract holds of the optimized compressor. -/
theorem C77_contract (e : Endian) (j : Nat → OptJunk) (jsw : Nat → CompJunk) : CuContract (optC e j jsw) := by
  refine ⟨fun a o src dst h8 h0 hl hd => ?_⟩
  have hne : src ≠ [] := List.length_pos_iff.1 h0
  obtain ⟨n, b, h1, -⟩ := C12_opt_worst_case e a o (j a) (jsw a) src dst h8 hne (by omega) (.inr (by omega))
  obtain ⟨-, h2, -, h3, -⟩ := C07_opt_length_contract e e a o a o (j a) (j a) (jsw a) (jsw a) src dst dst n n b b Iff.rfl h1 h1
  obtain ⟨rc, n', b', h4, h5⟩ := (C04_opt_compress_in_bounds e a o (j a) (jsw a) src dst).2.2 hne
  rw [h1] at h4
  cases h4
  exact ⟨n, b, h1, h5, h3, h2, (C26_opt_hw_compatible e a o (j a) (jsw a) src dst n b h1).2⟩

/-- The unit the file is padded to: 1024 bytes for each of the 32 threads of a block and each chunk of a thread. -/
def cuUnit (unified : Bool) : Nat := if unified then 2 ^ 20 else 2 ^ 25

/-- The file with zeros up to the next multiple of the unit -/
def cuPadded (unified : Bool) (file : List Byte) : List Byte :=
  file ++ List.replicate ((file.length + (cuUnit unified - 1)) / cuUnit unified * cuUnit unified - file.length) 0

theorem cuPadded_length (unified : Bool) (file : List Byte) :
    (cuPadded unified file).length = (file.length + (cuUnit unified - 1)) / cuUnit unified * cuUnit unified := by
  unfold cuPadded
  rw [List.length_append, List.length_replicate]
  cases unified
  · show file.length + ((file.length + (2 ^ 25 - 1)) / 2 ^ 25 * 2 ^ 25 - file.length) = (file.length + (2 ^ 25 - 1)) / 2 ^ 25 * 2 ^ 25
    omega
  · show file.length + ((file.length + (2 ^ 20 - 1)) / 2 ^ 20 * 2 ^ 20 - file.length) = (file.length + (2 ^ 20 - 1)) / 2 ^ 20 * 2 ^ 20
    omega

theorem cuMain_file (unified : Bool) (f : ChunkFn) (ain aout : Nat) (sizes : Nat → List Nat) (ord1 : List Nat → List Nat)
    (ord2 : Nat → List Nat → List Nat) (file : List Byte) (h : file.length < 2 ^ 63) :
    cuMain unified f ain aout sizes ord1 ord2 (.file (some file)) =
      cuMain.run unified f ain aout sizes ord1 ord2 (cuPadded unified file) := by
  unfold cuMain
  have hr : readFile file (cudaChunkSize * cuChunksPerThread unified * 32) = .ok (cuPadded unified file) := by
    cases unified
    · rw [show cudaChunkSize * cuChunksPerThread false * 32 = 2 ^ 25 from by decide, Cu.readFile_ok (by decide) h]
      unfold cuPadded
      rw [show cuUnit false = 2 ^ 25 from rfl]
    · rw [show cudaChunkSize * cuChunksPerThread true * 32 = 2 ^ 20 from by decide, Cu.readFile_ok (by decide) h]
      unfold cuPadded
      rw [show cuUnit true = 2 ^ 20 from rfl]
  simp only [hr, bind, BRes.bind]

/-- C77, without `USE_UNIFIED_MEM`, every non-empty file of up to 32 GiB: what the kernel leaves in `decompressed` is the
padded file, but from byte 2^34 on it is the beginning of the file again; the exit status is 0 in any case. -/
theorem C77_outcome_default (f : ChunkFn) (hc : CuContract f) (ain aout : Nat) (sizes : Nat → List Nat) (hs : ∀ n, (sizes n).length = n)
    (ord1 : List Nat → List Nat) (ord2 : Nat → List Nat → List Nat) (ho1 : ∀ l, (ord1 l).Perm l) (ho2 : ∀ k l, (ord2 k l).Perm l)
    (file : List Byte) (hne : file ≠ []) (hlen : file.length ≤ 2 ^ 35) :
    ∃ dec, dec = (cuPadded false file).take (2 ^ 34) ++ (cuPadded false file).take ((cuPadded false file).length - 2 ^ 34) ∧
      cuMain false f ain aout sizes ord1 ord2 (.file (some file)) = .ok ⟨decide (cuPadded false file = dec), 0, dec⟩ := by
  refine ⟨_, rfl, ?_⟩
  rw [cuMain_file _ _ _ _ _ _ _ _ (by omega)]
  have hl : (cuPadded false file).length = (file.length + (2 ^ 25 - 1)) / 2 ^ 25 * 2 ^ 25 := cuPadded_length false file
  have hp := List.length_pos_iff.2 hne
  have hk : 1 ≤ (file.length + (2 ^ 25 - 1)) / 2 ^ 25 := by omega
  have hk2 : (file.length + (2 ^ 25 - 1)) / 2 ^ 25 ≤ 1024 := by omega
  generalize (file.length + (2 ^ 25 - 1)) / 2 ^ 25 = k at hl hk hk2
  have hl' : (cuPadded false file).length = 1024 * (32768 * k) := by omega
  have hdiv : (cuPadded false file).length / cudaChunkSize = 32768 * k := by
    rw [hl']; exact Nat.mul_div_cancel_left _ (by decide)
  unfold cuMain.run
  rw [if_pos (by rw [hl']; show 1024 < _; omega)]
  exact Cu.default_ok hc ain aout _ ord1 ord2 ho1 ho2 hl' (by omega) (by rw [hdiv]; exact hs _) (by omega)

/-- C77, partial: non-empty files of up to 16 GiB without `USE_UNIFIED_MEM` (then there is no such limit): the sample
reports success, and `decompressed` has the file, followed by zeros.  Whatever the order of the threads and of the
iterations. -/
theorem C77_round_trip_partial (unified : Bool) (f : ChunkFn) (hc : CuContract f) (ain aout : Nat) (sizes : Nat → List Nat)
    (hs : ∀ n, (sizes n).length = n) (ord1 : List Nat → List Nat) (ord2 : Nat → List Nat → List Nat) (ho1 : ∀ l, (ord1 l).Perm l)
    (ho2 : ∀ k l, (ord2 k l).Perm l) (file : List Byte) (hne : file ≠ [])
    (hlen : if unified then file.length < 2 ^ 63 else file.length ≤ 2 ^ 34) :
    ∃ z, cuMain unified f ain aout sizes ord1 ord2 (.file (some file)) = .ok ⟨true, 0, file ++ List.replicate z 0⟩ := by
  refine ⟨_, (?_ : _ = BRes.ok (CuOut.mk true 0 (cuPadded unified file)))⟩
  cases unified
  · have hlen : file.length ≤ 2 ^ 34 := hlen
    obtain ⟨dec, hd, h⟩ := C77_outcome_default f hc ain aout sizes hs ord1 ord2 ho1 ho2 file hne (by omega)
    have hl : (cuPadded false file).length = (file.length + (2 ^ 25 - 1)) / 2 ^ 25 * 2 ^ 25 := cuPadded_length false file
    have hle : (cuPadded false file).length ≤ 2 ^ 34 := by omega
    rw [List.take_of_length_le hle, Nat.sub_eq_zero_of_le hle, List.take_zero, List.append_nil] at hd
    subst hd
    rw [h, decide_eq_true rfl]
  · have hlen : file.length < 2 ^ 63 := hlen
    rw [cuMain_file _ _ _ _ _ _ _ _ hlen]
    have hl : (cuPadded true file).length = (file.length + (2 ^ 20 - 1)) / 2 ^ 20 * 2 ^ 20 := cuPadded_length true file
    have hp := List.length_pos_iff.2 hne
    have hk : 1 ≤ (file.length + (2 ^ 20 - 1)) / 2 ^ 20 := by omega
    generalize (file.length + (2 ^ 20 - 1)) / 2 ^ 20 = k at hl hk
    have hl' : (cuPadded true file).length = 1048576 * k := by omega
    have hdiv : (cuPadded true file).length / cudaChunkSize = 1024 * k := by
      rw [hl']; show 1048576 * k / 1024 = _; omega
    unfold cuMain.run
    rw [if_pos (by rw [hl']; show 1024 < _; omega)]
    exact Cu.unified_ok hc ain aout _ ord1 ord2 ho1 ho2 hl' (by rw [hdiv]; exact hs _)

/-- The round trip for a file of three bytes, with the optimized compressor and threads in reverse order -/
example : ∃ z, cuMain false (optC .little (fun _ => ojunk0) (fun _ => junk0)) 0 0 (fun n => List.replicate n 7) List.reverse
    (fun _ => List.reverse) (.file (some [1, 2, 3])) = .ok ⟨true, 0, [1, 2, 3] ++ List.replicate z 0⟩ :=
  C77_round_trip_partial false _ (C77_contract _ _ _) 0 0 _ (by simp) _ _ (fun l => List.reverse_perm l)
    (fun _ l => List.reverse_perm l) _ (by decide) (by decide)

/-- C77 without an argument: the test string makes the round trip. -/
theorem C77_test_string (unified : Bool) (f : ChunkFn) (hc : CuContract f) (ain aout : Nat) (sizes : Nat → List Nat)
    (ord1 : List Nat → List Nat) (ord2 : Nat → List Nat → List Nat) :
    cuMain unified f ain aout sizes ord1 ord2 .none = .ok ⟨true, 0, testString⟩ := by
  unfold cuMain cuMain.run
  simp only
  rw [if_neg (by decide)]
  exact Cu.one_ok hc unified ain aout (by decide) (by decide) (by decide)

/-- C77 is false for large files: without `USE_UNIFIED_MEM` and above 16 GiB the kernel reads the streams of the first
chunks again, and unless the file repeats its beginning there, the sample reports a failure of a correct codec - with
exit status 0. -/
theorem C77_large_file_false (f : ChunkFn) (hc : CuContract f) (ain aout : Nat) (sizes : Nat → List Nat) (hs : ∀ n, (sizes n).length = n)
    (ord1 : List Nat → List Nat) (ord2 : Nat → List Nat → List Nat) (ho1 : ∀ l, (ord1 l).Perm l) (ho2 : ∀ k l, (ord2 k l).Perm l)
    (file : List Byte) (hlen : file.length ≤ 2 ^ 35) (i : Nat) (hi : 2 ^ 34 + i < file.length) (hd : file[2 ^ 34 + i]? ≠ file[i]?) :
    ∃ dec, cuMain false f ain aout sizes ord1 ord2 (.file (some file)) = .ok ⟨false, 0, dec⟩ := by
  obtain ⟨dec, hdec, h⟩ := C77_outcome_default f hc ain aout sizes hs ord1 ord2 ho1 ho2 file (by rintro rfl; simp at hi) hlen
  refine ⟨dec, ?_⟩
  rw [h, decide_eq_false]
  intro he
  apply hd
  have hl : (cuPadded false file).length = (file.length + (2 ^ 25 - 1)) / 2 ^ 25 * 2 ^ 25 := cuPadded_length false file
  have hge : file.length ≤ (cuPadded false file).length := by omega
  have hget : ∀ q, q < file.length → (cuPadded false file)[q]? = file[q]? := fun q hq => List.getElem?_append_left hq
  rw [← hget _ hi, ← hget i (by omega)]
  have h2 : (cuPadded false file)[2 ^ 34 + i]? = dec[2 ^ 34 + i]? := by rw [← he]
  rw [h2, hdec, List.getElem?_append_right (by rw [List.length_take]; omega), List.length_take,
    Nat.min_eq_left (by omega), Nat.add_sub_cancel_left, List.getElem?_take_of_lt (by omega)]

/-- There are such files: 2^34 zeros and a one. -/
example : (List.replicate (2 ^ 34) (0 : Byte) ++ [1]).length ≤ 2 ^ 35 ∧
    2 ^ 34 + 0 < (List.replicate (2 ^ 34) (0 : Byte) ++ [1]).length ∧
    (List.replicate (2 ^ 34) (0 : Byte) ++ [1])[2 ^ 34 + 0]? ≠ (List.replicate (2 ^ 34) (0 : Byte) ++ [1])[0]? := by
  have hl : (List.replicate (2 ^ 34) (0 : Byte)).length = 2 ^ 34 := List.length_replicate
  refine ⟨by rw [List.length_append, hl]; exact (by decide : 2 ^ 34 + 1 ≤ 2 ^ 35),
    by rw [List.length_append, hl]; exact (by decide : 2 ^ 34 + 0 < 2 ^ 34 + 1), ?_⟩
  rw [List.getElem?_append_right (by rw [hl]; exact Nat.le_add_right _ _), hl, Nat.add_sub_cancel_left,
    List.getElem?_append_left (by rw [hl]; exact Nat.two_pow_pos _), List.getElem?_replicate, if_pos (Nat.two_pow_pos _)]
  decide

/-- C77 is false for an empty file: the optimized compressor is called for no data (see C04). -/
theorem C77_empty_file_false (unified : Bool) (e : Endian) (j : Nat → OptJunk) (jsw : Nat → CompJunk) (ain aout : Nat)
    (ha : ain % 8 = 0) (ho : aout % 8 = 0) (sizes : Nat → List Nat) (ord1 : List Nat → List Nat) (ord2 : Nat → List Nat → List Nat) :
    cuMain unified (optC e j jsw) ain aout sizes ord1 ord2 (.file (some [])) = .ub := by
  rw [cuMain_file _ _ _ _ _ _ _ _ (by decide)]
  have hp : cuPadded unified [] = [] := by cases unified <;> decide +kernel
  rw [hp]
  unfold cuMain.run
  rw [if_neg (by decide)]
  unfold cuOne
  rw [show optC e j jsw ain aout [] (List.replicate (([] : List Byte).length * 2) 0) = .ub from
    (C04_opt_compress_in_bounds e ain aout (j ain) (jsw ain) [] _).1.2 ⟨rfl, ha, ho⟩]

theorem cuFinish_sound {inp dec : List Byte} {r : CuOut} (h : cuFinish inp dec = .ok r) :
    r.status = 0 ∧ r.dec = dec ∧ (r.success = true ↔ dec.take inp.length = inp) := by
  unfold cuFinish at h
  cases hr : readBytes dec 0 inp.length with
  | none => rw [hr] at h; cases h
  | some d =>
    rw [hr] at h
    simp only [BRes.access, bind, BRes.bind] at h
    cases h
    unfold readBytes at hr
    split at hr
    · cases hr
      simp only [List.drop_zero, decide_eq_true_eq, true_and]
      exact eq_comm
    · cases hr

theorem cuRun_sound {unified : Bool} {f : ChunkFn} {ain aout : Nat} {sizes : Nat → List Nat} {ord1 : List Nat → List Nat}
    {ord2 : Nat → List Nat → List Nat} {inp : List Byte} {r : CuOut} (h : cuMain.run unified f ain aout sizes ord1 ord2 inp = .ok r) :
    ∃ dec, cuFinish inp dec = .ok r := by
  have hbind : ∀ {α : Type} (x : BRes α) (k : α → BRes CuOut), BRes.bind x k = .ok r → ∃ a, k a = .ok r := by
    intro α x k hx
    cases x with
    | ok a => exact ⟨a, hx⟩
    | _ => cases hx
  unfold cuMain.run at h
  split at h
  · unfold cuMany at h
    obtain ⟨m, h⟩ := hbind _ _ h
    cases unified
    · exact hbind _ _ h
    · exact hbind _ _ h
  · unfold cuOne at h
    split at h
    · cases h
    · cases h
    · cases unified
      · obtain ⟨b, h⟩ := hbind _ _ h
        exact hbind _ _ h
      · exact hbind _ _ h

/-- C77: the message is right, whatever the compressor does: success is reported if and only if `decompressed` begins
with the padded file; the exit status is always 0. -/
theorem C77_success_sound (unified : Bool) (f : ChunkFn) (ain aout : Nat) (sizes : Nat → List Nat) (ord1 : List Nat → List Nat)
    (ord2 : Nat → List Nat → List Nat) (file : List Byte) (hlen : file.length < 2 ^ 63) (r : CuOut)
    (h : cuMain unified f ain aout sizes ord1 ord2 (.file (some file)) = .ok r) :
    r.status = 0 ∧ (r.success = true ↔ cuPadded unified file <+: r.dec) := by
  rw [cuMain_file _ _ _ _ _ _ _ _ hlen] at h
  obtain ⟨dec, hd⟩ := cuRun_sound h
  obtain ⟨h1, h2, h3⟩ := cuFinish_sound hd
  refine ⟨h1, h3.trans ?_⟩
  rw [h2, List.prefix_iff_eq_take]
  exact eq_comm

end Lib842.Props
