import Verif.Proofs.CudaInterleave
import Verif.Props.ClHost
import Verif.Props.Cuda
/-!
# Property theorems for the threads of a CUDA launch that run at the same time (C83)
-/

namespace Lib842.Props
open Spec

/-- C83: a thread that runs alone, access by access, computes what the thread of `Verif.Model.Cuda` computes. -/
theorem C83_one_thread (inp buf y : List Byte) :
    cudaThread inp buf = some y ↔ (cudaThreadP inp).run buf = some (true, y) := simc_thread inp buf y

/-- C83, partial: up to 2^24 threads, each with a stream for at most 1024 bytes: whatever the interleaving, there is
no race and no access out of bounds, all threads end, and each chunk is restored; the rest of the buffer keeps its
contents.  Missing: larger launches and corrupt streams, see below. -/
theorem C83_launch_partial (inp buf : List Byte) (xs : List (List Byte)) (hx : ∀ x ∈ xs, x.length ≤ 1024)
    (hin : ∀ (i : Nat) (x : List Byte), xs[i]? = some x → ∃ n, n % 8 = 0 ∧ 2048 * i + n ≤ inp.length ∧
      HwDecodes ((inp.drop (2048 * i)).take n) x)
    (hlim : xs.length ≤ 2 ^ 24) (hbuf : 1024 * xs.length ≤ buf.length)
    {s : MemSys Bool} (h : MemReach (cudaSys inp xs.length buf) s) :
    ¬ MemRace s ∧ ¬ MemFault s ∧ (∃ s', MemReach s s' ∧ MemDone s') ∧
    (MemDone s → s.buf.length = buf.length ∧ s.buf.drop (1024 * xs.length) = buf.drop (1024 * xs.length) ∧
      (∀ t, s.th t = .ret true) ∧
      ∀ (i : Nat) (x : List Byte), xs[i]? = some x → ∀ j, j < 1024 →
        s.buf[1024 * i + j]? = if j < x.length then x[j]? else buf[1024 * i + j]?) := by
  obtain ⟨h1, h2, h3, h4, h5, h6⟩ := cudaSys_reach inp buf xs.length (by omega) hbuf
    (fun i => xs.getD i [] ++ (memSlot buf (1024 * i) 1024).drop (xs.getD i []).length) (fun i hi => by
      have hi' : xs[i]? = some xs[i] := List.getElem?_eq_getElem hi
      obtain ⟨n, k1, k2, k3⟩ := hin i _ hi'
      have hxi := hx _ (List.mem_of_getElem? hi')
      rw [Nat.mod_eq_of_lt (by omega), List.getD_eq_getElem?_getD, hi', Option.getD_some]
      refine ⟨by omega, cudaThread_prefix k1 (by rw [List.length_drop]; omega) k3 ?_⟩
      rw [memSlot_length (by omega)]; exact hxi) h
  refine ⟨h1, h2, h3, fun hd => ⟨h4, h5, fun t => ?_, fun i x hix j hj => ?_⟩⟩
  · obtain ⟨r, hr⟩ := hd t
    rw [hr, (h6 t r hr).1]
  · have hi : i < xs.length := (List.getElem?_eq_some_iff.1 hix).1
    obtain ⟨r, hr⟩ := hd i
    have hs := (h6 i r hr).2 hi
    rw [List.getD_eq_getElem?_getD, hix, Option.getD_some] at hs
    have hg := congrArg (fun l => l[j]?) hs
    simp only [memSlot_get, if_pos hj] at hg
    rw [hg]
    by_cases hjx : j < x.length
    · rw [if_pos hjx, List.getElem?_append_left hjx]
    · rw [if_neg hjx, List.getElem?_append_right (by omega), List.getElem?_drop, memSlot_get,
        show x.length + (j - x.length) = j by omega, if_pos hj]

/-- C83, partial, for arbitrary input: if each thread, given nothing but its own slot, ends without doing anything
undefined, there is no race in any interleaving, and each slot has the result of its thread alone.  (Above 2^24
threads this is the stream of another chunk, see C47.) -/
theorem C83_alone_partial (inp buf : List Byte) (n : Nat) (hn : n ≤ 2 ^ 25) (hbuf : 1024 * n ≤ buf.length)
    (y : Nat → List Byte)
    (hth : ∀ i, i < n → 2048 * (i % 2 ^ 24) ≤ inp.length ∧
      cudaThread (inp.drop (2048 * (i % 2 ^ 24))) (memSlot buf (1024 * i) 1024) = some (y i))
    {s : MemSys Bool} (h : MemReach (cudaSys inp n buf) s) :
    ¬ MemRace s ∧ ¬ MemFault s ∧ (∃ s', MemReach s s' ∧ MemDone s') ∧
    (MemDone s → s.buf.length = buf.length ∧ s.buf.drop (1024 * n) = buf.drop (1024 * n) ∧
      ∀ i, i < n → memSlot s.buf (1024 * i) 1024 = y i) := by
  obtain ⟨h1, h2, h3, h4, h5, h6⟩ := cudaSys_reach inp buf n hn hbuf y hth h
  refine ⟨h1, h2, h3, fun hd => ⟨h4, h5, fun i hi => ?_⟩⟩
  obtain ⟨r, hr⟩ := hd i
  exact (h6 i r hr).2 hi

/-- C83 is false for more than 2^25 threads even if all chunks are valid: the thread 2^25 does the work of thread 0
once more, and both store to the first chunk (here not empty, and the buffer does not hold its data before). -/
theorem C83_large_launch_false (inp buf x : List Byte) (n k : Nat) (hn : 2 ^ 25 < n) (h8 : k % 8 = 0)
    (hk : k ≤ inp.length) (hdec : HwDecodes (inp.take k) x) (hxl : x.length ≤ buf.length)
    (hne : buf.take x.length ≠ x) : ∃ s, MemReach (cudaSys inp n buf) s ∧ MemRace s := by
  have e0 : (cudaSys inp n buf).th 0 = cudaThreadP inp := by
    simp only [cudaSys]
    rw [if_neg (by omega)]
    simp [MemProg.shift_zero]
  have e1 : (cudaSys inp n buf).th (2 ^ 25) = cudaThreadP inp := by
    simp only [cudaSys]
    rw [if_neg (by omega)]
    have a1 : 8 * (cudaChunkSize / 8 * 2 * 2 ^ 25 % 2 ^ 32) = 0 := by decide
    have a2 : 8 * (cudaChunkSize / 8 * 2 ^ 25 % 2 ^ 32) = 0 := by decide
    rw [a1, a2, if_neg (by omega), MemProg.shift_zero, List.drop_zero]
  refine MemRace.of_same (t := 0) (u := 2 ^ 25) (by decide) (e0.trans e1.symm) (a := true)
    (y := x ++ buf.drop x.length) ?_ ?_
  · rw [e0]
    exact (simc_thread _ _ _).1 (cudaThread_prefix h8 hk hdec hxl)
  · intro he
    apply hne
    have : (x ++ buf.drop x.length).take x.length = x := List.take_left
    rw [he] at this
    exact this

/-- C83 is false for corrupt streams: the first chunk begins with a reference to a position in the second one, which is
not checked; its thread reads there while the other thread stores its data. -/
theorem C83_corrupt_false : MemRace (cudaSys ([0xcc, 0, 0, 0, 0, 0, 0, 0] ++ List.replicate 2040 0 ++ exStream1) 2
    (List.replicate 2048 0)) :=
  ⟨0, 1, false, 1024, 2, true, 1024, 8, by decide, by decide +kernel, by decide +kernel, rfl, 1024, by decide⟩

/-- Two chunks with the same stream: the hypotheses of `C83_launch_partial` hold. -/
example {s : MemSys Bool} (h : MemReach (cudaSys (exStream1 ++ List.replicate 2032 0 ++ exStream1) 2
    (List.replicate 2048 0xaa)) s) : ¬ MemRace s := by
  have ht : (exStream1 ++ List.replicate 2032 (0 : Byte) ++ exStream1).drop 2048 = exStream1 := by
    rw [List.drop_left' (by rw [List.length_append, List.length_replicate]; rfl)]
  have hl : (exStream1 ++ List.replicate 2032 (0 : Byte) ++ exStream1).length = 2064 := by
    rw [List.length_append, List.length_append, List.length_replicate]; rfl
  refine (C83_launch_partial (exStream1 ++ List.replicate 2032 0 ++ exStream1) (List.replicate 2048 0xaa)
    [[1, 2, 3, 4, 5, 6, 7, 8], [1, 2, 3, 4, 5, 6, 7, 8]] (by decide) ?_ (by decide)
    (by rw [List.length_replicate]; decide) h).1
  intro i x hi
  rcases i with _ | _ | i
  · cases hi
    refine ⟨16, rfl, by rw [hl]; decide, ?_⟩
    rw [List.append_assoc, Nat.mul_zero, List.drop_zero, List.take_left' (show exStream1.length = 16 from rfl)]
    exact exStream1_hw
  · cases hi
    refine ⟨16, rfl, by rw [hl], ?_⟩
    rw [show 2048 * (0 + 1) = 2048 from rfl, ht]
    exact exStream1_hw
  · cases hi

/-- The hypotheses of `C83_large_launch_false` hold. -/
example : ∃ s, MemReach (cudaSys exStream1 (2 ^ 26) (List.replicate (2 ^ 36) 0)) s ∧ MemRace s := by
  refine C83_large_launch_false exStream1 _ [1, 2, 3, 4, 5, 6, 7, 8] (2 ^ 26) 16 (by decide) rfl (by decide) exStream1_hw
    (by rw [List.length_replicate]; decide) ?_
  rw [List.take_replicate]
  decide

end Lib842.Props
