import Verif.Proofs.Stale
import Verif.Props.Cuda
import Verif.Props.Ocl
/-!
# C100: the old contents of the output buffer do not matter

For an input and a size `k` of the output buffer either all calls are undefined, or all return the same code `r` and length `n` and
store the same bytes `w` at the start of the buffer, whatever was in it; the rest of the buffer is left alone.
-/

namespace Lib842.Props
open Spec

/-- C100 for `sw842_decompress`, on every input. -/
theorem C100_sw (e : Endian) (addr : Nat) (inp : List Byte) (k : Nat) :
    (∀ buf : List Byte, buf.length = k → sw842Decompress e addr inp buf = .ub) ∨
    ∃ (r : Option Errno) (n : Nat) (w : List Byte), w.length ≤ k ∧ (r = none → n = w.length) ∧
      ∀ buf : List Byte, buf.length = k → sw842Decompress e addr inp buf = .ret r n (w ++ buf.drop w.length) := by
  rcases sw_stale e addr (8 * inp.length + 1) inp k with h | h | h
  · exact .inl h
  · exact absurd (h (List.replicate k 0) (by simp)) (C09_sw_decompress_terminates e addr _ inp _ (by omega)).1
  · exact .inr h

/-- C100 for `optsw842_decompress`, on every input and for every alignment. -/
theorem C100_opt (e : Endian) (ain aout : Nat) (inp : List Byte) (k : Nat) :
    (∀ buf : List Byte, buf.length = k → optsw842Decompress e ain aout inp buf = .ub) ∨
    ∃ (r : Option Errno) (n : Nat) (w : List Byte), w.length ≤ k ∧ (r = none → n = w.length) ∧
      ∀ buf : List Byte, buf.length = k → optsw842Decompress e ain aout inp buf = .ret r n (w ++ buf.drop w.length) := by
  rcases opt_stale e ain aout (8 * inp.length + 1) inp k with h | h | h
  · exact .inl h
  · exact absurd (h (List.replicate k 0) (by simp)) (C09_opt_decompress_terminates e ain aout _ inp _ (by omega)).1
  · exact .inr h

/-- C100 for the OpenCL decoder with separate buffers (`olen` is the size it is given, `k` the size of the object): although it
reads four bytes where it needs two, the surplus has no effect. -/
theorem C100_ocl (e : Endian) (inp : List Byte) (ioff ilen olen k : Nat)
    (hin : 8 * ioff + 8 * ((ilen + 7) / 8) ≤ inp.length) (hout : olen ≤ k) :
    (k < 8 * (olen / 8) + 2 ∧ ∀ buf : List Byte, buf.length = k → oclCore e (some inp) ioff ilen buf olen = .ub) ∨
    ∃ (r : Option Errno) (n : Nat) (w : List Byte), w.length ≤ k ∧ (r = none → n = w.length) ∧
      ∀ buf : List Byte, buf.length = k → oclCore e (some inp) ioff ilen buf olen = .ret r n (w ++ buf.drop w.length) := by
  have hr := oclCore_res e inp ioff ilen (List.replicate k 0) olen hin (by simp [hout])
  rcases ocl_stale e inp ioff ilen olen k with h | h | h
  · refine .inl ⟨?_, h⟩
    have h1 := h (List.replicate k 0) (by simp)
    rw [show oclCore e (some inp) ioff ilen (List.replicate k 0) olen = .ub from h1] at hr
    cases hr with
    | ub h2 => simpa using h2
  · have h1 := h (List.replicate k 0) (by simp)
    rw [show oclCore e (some inp) ioff ilen (List.replicate k 0) olen = .timeout from h1] at hr
    cases hr
  · exact .inr h

/-- An op of zeros, then a reference to word 2, which is not there yet. -/
def exStale : List Byte := [0xe6, 0x40, 0xbc, 0, 0, 0, 0, 0]

/-- The input of the counterexample below: the decoders with checks store the zeros and report the error. -/
example (b : List Byte) (hb : b.length = 24) :
    sw842Decompress .little 0 exStale b = .ret (some .EINVAL) 0 (List.replicate 8 0 ++ b.drop 8) ∧
    optsw842Decompress .little 0 0 exStale b = .ret (some .EINVAL) 0 (List.replicate 8 0 ++ b.drop 8) ∧
    oclCore .little (some exStale) 0 8 b 16 = .ret (some .EINVAL) 0 (List.replicate 8 0 ++ b.drop 8) := by
  have key : ∀ (f : List Byte → Call),
      (∃ (r : Option Errno) (n : Nat) (w : List Byte), w.length ≤ 24 ∧ (r = none → n = w.length) ∧
        ∀ buf : List Byte, buf.length = 24 → f buf = .ret r n (w ++ buf.drop w.length)) →
      f (List.replicate 24 1) = .ret (some .EINVAL) 0 (List.replicate 8 0 ++ List.replicate 16 1) →
      f (List.replicate 24 2) = .ret (some .EINVAL) 0 (List.replicate 8 0 ++ List.replicate 16 2) →
      f b = .ret (some .EINVAL) 0 (List.replicate 8 0 ++ b.drop 8) := by
    intro f ⟨r, n, w, h1, _, h3⟩ ha hc
    rw [h3 _ (by simp)] at ha hc
    cases (Call.ret.inj ha).1
    cases (Call.ret.inj ha).2.1
    have h4 := (Call.ret.inj ha).2.2
    have h5 := (Call.ret.inj hc).2.2
    have h8 : w.length = 8 := by
      rw [List.drop_replicate] at h4 h5
      rcases Nat.lt_trichotomy w.length 8 with h | h | h
      · have := congrArg (·[w.length]?) h4
        rw [List.getElem?_append_right (by omega), List.getElem?_append_left (by simp; omega), List.getElem?_replicate_of_lt (by omega),
          List.getElem?_replicate_of_lt h] at this
        exact absurd this (by decide)
      · exact h
      · have e1 := congrArg (·[8]?) h4
        have e2 := congrArg (·[8]?) h5
        rw [List.getElem?_append_left h] at e1 e2
        rw [e1] at e2
        exact absurd e2 (by decide)
    rw [h3 b hb, h8]
    have hw : w = List.replicate 8 0 := by
      have := congrArg (List.take 8) h4
      rwa [List.take_append_of_le_length (by omega), List.take_of_length_le (by omega),
        List.take_append_of_le_length (by simp), List.take_of_length_le (by simp)] at this
    rw [hw]
  refine ⟨key _ ((C100_sw .little 0 exStale 24).resolve_left fun h => ?_) (by decide +kernel) (by decide +kernel),
    key _ ((C100_opt .little 0 0 exStale 24).resolve_left fun h => ?_) (by decide +kernel) (by decide +kernel),
    key (fun b => oclCore .little (some exStale) 0 8 b 16) ((C100_ocl .little exStale 0 8 16 24 (by decide) (by decide)).resolve_left fun h => ?_)
      (by decide +kernel) (by decide +kernel)⟩
  · exact absurd (h (List.replicate 24 1) (by simp)) (by decide +kernel)
  · exact absurd (h (List.replicate 24 1) (by simp)) (by decide +kernel)
  · exact absurd h.1 (by decide)

/-- C100 is false for the CUDA decoder: on that input it takes old contents of the buffer for data, and reports nothing. -/
theorem C100_cuda_copies (a : Byte) :
    cudaThread exStale (List.replicate 16 0 ++ List.replicate 8 a) = some (List.replicate 8 0 ++ List.replicate 8 a ++ List.replicate 8 a) := by
  revert a
  decide +kernel

theorem C100_cuda_false :
    ¬ ∀ (inp : List Byte) (k : Nat), (∀ buf : List Byte, buf.length = k → cudaThread inp buf = none) ∨
      ∃ w : List Byte, ∀ buf : List Byte, buf.length = k → cudaThread inp buf = some (w ++ buf.drop w.length) := by
  intro h
  have h0 := C100_cuda_copies 0
  have h1 := C100_cuda_copies 1
  rcases h exStale 24 with h | ⟨w, h⟩
  · rw [h _ (by decide)] at h0
    cases h0
  · rw [h _ (by decide)] at h0 h1
    by_cases hw : w.length ≤ 8
    · have := congrArg (·[8]?) (Option.some.inj h1)
      rw [List.getElem?_append_right hw, List.getElem?_drop, show w.length + (8 - w.length) = 8 by omega] at this
      exact absurd this (by decide)
    · have e0 := congrArg (·[8]?) (Option.some.inj h0)
      have e1 := congrArg (·[8]?) (Option.some.inj h1)
      rw [List.getElem?_append_left (by omega)] at e0 e1
      rw [e0] at e1
      exact absurd e1 (by decide)

end Lib842.Props
