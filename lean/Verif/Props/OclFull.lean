import Verif.Proofs.OclFull
import Verif.Proofs.Overflow
import Verif.Props.NoRoom
import Verif.Props.Ocl
/-!
# C73: exactly when the OpenCL decoder reports -ENOSPC
-/

namespace Lib842.Props
open Spec

/-- C73: the OpenCL decoder answers `-ENOSPC` exactly if the input begins with valid ops for more data than there is room for.  (`hpad`: the
output object is 2 bytes longer than the words in it, else the decoder may read outside, C57.) -/
theorem C73_ocl_nospace_exact (e : Endian) (inp buf : List Byte) (ilen olen : Nat) (h8 : ilen % 8 = 0) (hin : ilen ≤ inp.length)
    (hout : olen ≤ buf.length) (hpad : 8 * (olen / 8) + 2 ≤ buf.length) :
    (∃ n b, oclCore e (some inp) 0 ilen buf olen = .ret (some .ENOSPC) n b) ↔ LongerThan (inp.take ilen) olen := by
  have hw : (inp.drop (8 * 0)).take (8 * (ilen / 8)) = inp.take ilen := by
    rw [Nat.mul_zero, List.drop_zero, show 8 * (ilen / 8) = ilen by omega]
  have hr := oclCore_res e inp 0 ilen buf olen (by omega) hout
  rw [hw] at hr
  constructor
  · rintro ⟨n, b, h⟩
    rw [h] at hr
    cases hr with
    | @full ops o _ R hx hs hb ho => exact ⟨ops, o, R, hx, hs, ho, hb⟩
  · rintro ⟨ops, d, R, hx, hs, ho, hb⟩
    rcases Codes.ocl_over e inp 0 ilen buf olen (by omega) hout hx hs (R := R) (by rw [hw]; exact hb) ho with ⟨b, h⟩ | h
    · exact ⟨0, b, h⟩
    · rw [h] at hr
      cases hr with
      | ub h => omega

/-- C73, the verdict of the OpenCL decoder on every input and buffer: exactly one of the three answers applies. -/
theorem C73_ocl_verdict (e : Endian) (inp buf : List Byte) (ilen olen : Nat) (h8 : ilen % 8 = 0) (hin : ilen ≤ inp.length)
    (hout : olen ≤ buf.length) (hpad : 8 * (olen / 8) + 2 ≤ buf.length) :
    let stream := fun d => ∃ ops crc rest, Expands ops d ∧ (∀ op ∈ ops, op.isShort = false) ∧
      bytesBits (inp.take ilen) = ops.flatMap Op.bits ++ (bitsOf 5 0x1e ++ (bitsOf 32 crc ++ rest))
    (∃ d b, oclCore e (some inp) 0 ilen buf olen = .ret none d.length b ∧ b = d ++ buf.drop d.length ∧ d.length ≤ olen ∧ stream d ∧
      ¬ LongerThan (inp.take ilen) olen) ∨
    (∃ b, oclCore e (some inp) 0 ilen buf olen = .ret (some .ENOSPC) 0 b ∧ LongerThan (inp.take ilen) olen) ∨
    (∃ b, oclCore e (some inp) 0 ilen buf olen = .ret (some .EINVAL) 0 b ∧ ¬ (∃ d, stream d) ∧ ¬ LongerThan (inp.take ilen) olen) := by
  intro stream
  have hex := C73_ocl_nospace_exact e inp buf ilen olen h8 hin hout hpad
  have hw : (inp.drop (8 * 0)).take (8 * (ilen / 8)) = inp.take ilen := by
    rw [Nat.mul_zero, List.drop_zero, show 8 * (ilen / 8) = ilen by omega]
  have hr := oclCore_res e inp 0 ilen buf olen (by omega) hout
  rw [hw] at hr
  generalize hx : oclCore e (some inp) 0 ilen buf olen = x at hr hex
  cases hr with
  | @ok d b hd hl hbl h1 h2 =>
    refine .inl ⟨d, b, rfl, ?_, hl, ?_, fun h => ?_⟩
    · rw [← List.take_append_drop d.length b, h1, h2]
    · obtain ⟨ops, rest, h3, h4, h5, h6⟩ := hd
      have hs : rest = bitsOf 32 (bitsVal (rest.take 32)) ++ rest.drop 32 := by
        conv_lhs => rw [← List.take_append_drop 32 rest]
        rw [show bitsOf 32 (bitsVal (rest.take 32)) = rest.take 32 by
          have := bitsOf_bitsVal (rest.take 32)
          rwa [List.length_take, Nat.min_eq_left h5] at this]
      exact ⟨ops, _, _, h3, h4, by rw [← hs]; exact h6⟩
    · obtain ⟨n, b', h⟩ := hex.mpr h
      cases h
  | full _ _ _ _ _ _ => exact .inr (.inl ⟨_, rfl, hex.mp ⟨_, _, rfl⟩⟩)
  | bad hno _ _ =>
    refine .inr (.inr ⟨_, rfl, ?_, fun h => ?_⟩)
    · rintro ⟨d, ops, crc, rest, h1, h2, h3⟩
      exact hno ⟨d, ops, bitsOf 32 crc ++ rest, h1, h2, by simp, h3⟩
    · obtain ⟨n, b', h⟩ := hex.mpr h
      cases h
  | ub h => omega

/-- C73: `-ENOSPC` from the OpenCL decoder is also what the optimized decompressor says.  (Not conversely, see below.) -/
theorem C73_ocl_opt_nospace (e e' : Endian) (ain aout : Nat) (hal : ain % 8 = 0 ∧ aout % 8 = 0) (inp buf buf' : List Byte) (h8 : inp.length % 8 = 0)
    (n : Nat) (b : List Byte) (hle : buf'.length ≤ buf.length)
    (h : oclCore e (some inp) 0 inp.length buf buf'.length = .ret (some .ENOSPC) n b) :
    ∃ b', optsw842Decompress e' ain aout inp buf' = .ret (some .ENOSPC) 0 b' := by
  have hw : (inp.drop (8 * 0)).take (8 * (inp.length / 8)) = inp := by
    rw [Nat.mul_zero, List.drop_zero, show 8 * (inp.length / 8) = inp.length by omega, List.take_length]
  have hr := oclCore_res e inp 0 inp.length buf buf'.length (by omega) hle
  rw [hw, h] at hr
  cases hr with
  | @full ops o _ R hx hs hb ho =>
    have hov := longerThan_overflows ⟨ops, o, R, hx, hs, ho, hb⟩
    rcases C73_opt_verdict e' ain aout hal inp buf' with ⟨d, b', h1⟩ | ⟨b', h1, -⟩ | ⟨b', h1⟩
    · exact absurd (by rw [show 8 * (inp.length / 8) = inp.length by omega, List.take_length]; exact hov) h1.2.2.2.2
    · exact ⟨b', h1⟩
    · exact absurd (by rw [show 8 * (inp.length / 8) = inp.length by omega, List.take_length]; exact hov) h1.2.2

/-- Too little room, for the OpenCL decoder and the optimized one; a stream that breaks off in the op without room, which is `-EINVAL` for the first. -/
example : view (oclCore .little (some exOut8) 0 24 (List.replicate 40 0xaa) 31) = some (some .ENOSPC, 0, []) ∧
    view (oclCore .little (some [0, 0, 0, 0, 0, 0, 0, 0]) 0 8 (List.replicate 40 0xaa) 7) = some (some .EINVAL, 0, []) ∧
    view (optsw842Decompress .little 0 0 [0, 0, 0, 0, 0, 0, 0, 0] (List.replicate 7 0xaa)) = some (some .ENOSPC, 0, []) := by
  decide +kernel

end Lib842.Props
