import Verif.Proofs.WorkBoundOcl
/-!
# Property theorems about the work of the OpenCL decoder in terms of the room for the output (C118)
-/

namespace Lib842
open Spec Work

/-- `decompress_core` (/repo/src/ocl/decompress.cl 267-388, the model's `oclCore`) with at most `fuel` rounds of the loop 295-362: the
outcome is `timeout` if the loop would go on. -/
def oclCoreF (fuel : Nat) (e : Endian) (src : Option (List Byte)) (ioff ilen : Nat) (buf : List Byte) (olen : Nat) : Call :=
  match oclInit e (oclStart src ioff ilen buf olen) with
  | none => .ub
  | some p =>
    match oclBody e fuel p with
    | .ok n p => .ret none n p.buf
    | .err er p => .ret (some er) 0 p.buf
    | .ub => .ub
    | .timeout => .timeout

namespace Props

/-- C118: when the input is not in the output buffer, the loop of `decompress_core` (OpenCL) runs at most `n / 8 + 1` times, where `n` is the
room for the output. -/
theorem C118_ocl_steps (e : Endian) (fuel : Nat) (inp : List Byte) (ioff ilen : Nat) (buf : List Byte) (olen : Nat)
    (hin : 8 * ioff + 8 * ((ilen + 7) / 8) ≤ inp.length) (hf : min olen buf.length / 8 < fuel) :
    oclCoreF fuel e (some inp) ioff ilen buf olen = oclCore e (some inp) ioff ilen buf olen ∧
    (olen ≤ buf.length → oclCoreF fuel e (some inp) ioff ilen buf olen ≠ .timeout) := by
  have heq : oclCoreF fuel e (some inp) ioff ilen buf olen = oclCore e (some inp) ioff ilen buf olen := by
    obtain ⟨p0, h0, hinv, ho0, hr0⟩ := oclInit_ok e (some inp) ioff ilen buf olen hin
    have hK : ∀ p', (oclG e (some inp) ioff ilen buf olen hin).dec.Keep p' := fun p' => .inl (by intro h; cases h)
    have hok := oclIter_ok (oclG e (some inp) ioff ilen buf olen hin)
    have h1 := dec_room hok hK fuel hinv (by rw [ho0]; show min olen buf.length < _; simp only [List.length_nil]; omega)
    have h2 := dec_ends hok hK (8 * ilen + 1) hinv (by
      rw [hr0, length_bytesBits]
      have := (oclG e (some inp) ioff ilen buf olen hin).length_bytes
      rw [this]; show 8 * (8 * (ilen / 8)) < _; omega)
    have h3 : M.doWhile (oclIter e) fuel p0 = M.doWhile (oclIter e) (8 * ilen + 1) p0 := doWhile_any _ h1 h2
    have h4 : oclBody e fuel p0 = oclBody e (8 * ilen + 1) p0 := by
      unfold oclBody
      rw [M.bind_def, M.bind_def, h3]
    unfold oclCoreF oclCore
    rw [h0]
    simp only [h4]
    rfl
  refine ⟨heq, fun hb ht => ?_⟩
  have hr := oclCore_res e inp ioff ilen buf olen hin hb
  rw [← heq, ht] at hr
  cases hr

/-- C118: it takes `n / 8 + 1` rounds for a stream of zeros. -/
theorem C118_ocl_exact (n : Nat) : ∃ s : List Byte, HwDecodes s (List.replicate (8 * n) 0#8) ∧
    ∀ (e : Endian) (buf : List Byte) (olen : Nat), min olen buf.length / 8 = n → oclCoreF n e (some s) 0 s.length buf olen = .timeout := by
  obtain ⟨s, -, h8, R, hs⟩ := zeros_stream n
  refine ⟨s, ⟨List.replicate n Op.zeros, R, ⟨fun o h => (zeros_valid n o h).1, by simpa using Work.zeros_run n []⟩,
    fun o h => (zeros_valid n o h).2, hs⟩, fun e buf olen hb => ?_⟩
  have hin : 8 * 0 + 8 * ((s.length + 7) / 8) ≤ ((some s : Option (List Byte)).getD buf).length := by
    show _ ≤ s.length; omega
  obtain ⟨p0, h0, hinv, ho0, hr0⟩ := oclInit_ok e (some s) 0 s.length buf olen hin
  have hK : ∀ p', (oclG e (some s) 0 s.length buf olen hin).dec.Keep p' := fun p' => .inl (by intro h; cases h)
  have hr : bytesBits (oclG e (some s) 0 s.length buf olen hin).bytes = bytesBits s := by
    show bytesBits ((s.drop (8 * 0)).take (8 * (s.length / 8))) = _
    rw [List.take_of_length_le (by simp; omega)]; rfl
  have h1 := dec_short (oclIter_ok (oclG e (some s) 0 s.length buf olen hin)) hK (ops := List.replicate n Op.zeros)
    (fun o h => (zeros_valid n o h).1) (fun o h => (zeros_valid n o h).2) hinv (R := trailer (List.replicate (8 * n) 0#8) ++ R)
    (by rw [hr0, hr, hs, List.append_assoc]) (data := List.replicate (8 * n) 0#8) (by rw [ho0]; simpa using Work.zeros_run n [])
    (by rw [List.length_replicate]; show _ ≤ min olen buf.length; omega)
  rw [List.length_replicate] at h1
  have h2 : M.doWhile (oclIter e) n p0 = .timeout := h1
  unfold oclCoreF
  rw [h0]
  unfold oclBody
  simp only [M.bind_def, h2]

/-- With room for 20 bytes three rounds are enough, however long the input is. -/
example (e : Endian) (inp buf : List Byte) (hb : buf.length = 20) (h8 : inp.length = 8000) :
    oclCoreF 3 e (some inp) 0 inp.length buf 20 ≠ .timeout ∧ oclCoreF 3 e (some inp) 0 inp.length buf 20 = oclCore e (some inp) 0 inp.length buf 20 :=
  have h := C118_ocl_steps e 3 inp 0 inp.length buf 20 (by omega) (by rw [hb]; decide)
  ⟨h.2 (by omega), h.1⟩

end Props
end Lib842
