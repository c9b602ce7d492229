import Verif.Proofs.WorkBoundOclInput
import Verif.Props.OclFull
/-!
# How much of its input the OpenCL decoder needs (C118)
-/

namespace Lib842
open Spec Work

namespace Props

/-- C118: with room for `olen` bytes the answer of `decompress_core` (OpenCL; input not in the output buffer), and the output if it succeeds, are
determined by the first `69 * (olen / 8 + 1)` bits of the input, rounded up to words of 64 bits. -/
theorem C118_ocl_input (e : Endian) (inp buf : List Byte) (ilen olen : Nat) (h8 : ilen % 8 = 0) (hin : ilen ≤ inp.length) (hout : olen ≤ buf.length)
    (hpad : 8 * (olen / 8) + 2 ≤ buf.length) : ∃ r n b b', oclCore e (some inp) 0 ilen buf olen = .ret r n b ∧
      oclCore e (some inp) 0 (min ilen (8 * ((69 * (olen / 8 + 1) + 63) / 64))) buf olen = .ret r n b' ∧ (r = none → b' = b) := by
  generalize hk : 8 * ((69 * (olen / 8 + 1) + 63) / 64) = K
  have hK : 69 * (olen / 8 + 1) ≤ 8 * K := by omega
  have hm : inp.take (min ilen K) = (inp.take ilen).take K := by rw [List.take_take, Nat.min_comm]
  have v1 := C73_ocl_verdict e inp buf ilen olen h8 hin hout hpad
  have v2 := C73_ocl_verdict e inp buf (min ilen K) olen (by omega) (by omega) hout hpad
  rw [hm] at v2
  generalize inp.take ilen = s at v1 v2
  change (∃ d b, _ ∧ _ ∧ _ ∧ AnyCrc s d ∧ _) ∨ _ ∨ (∃ b, _ ∧ ¬ (∃ d, AnyCrc s d) ∧ _) at v1
  change (∃ d b, _ ∧ _ ∧ _ ∧ AnyCrc (s.take K) d ∧ _) ∨ _ ∨ (∃ b, _ ∧ ¬ (∃ d, AnyCrc (s.take K) d) ∧ _) at v2
  rw [longer_cut hK] at v2
  rcases v1 with ⟨d, b, a1, a2, a3, a4, a5⟩ | ⟨b, a1, a2⟩ | ⟨b, a1, a2, a3⟩
  · rcases v2 with ⟨d', b', c1, c2, c3, c4, c5⟩ | ⟨b', c1, c2⟩ | ⟨b', c1, c2, c3⟩
    · obtain rfl := anyCrc_unique a4 (anyCrc_more c4)
      exact ⟨_, _, b, b', a1, c1, fun _ => by rw [a2, c2]⟩
    · exact absurd c2 a5
    · exact absurd ⟨d, anyCrc_cut hK a3 a4⟩ c2
  · rcases v2 with ⟨d', b', c1, c2, c3, c4, c5⟩ | ⟨b', c1, c2⟩ | ⟨b', c1, c2, c3⟩
    · exact absurd a2 c5
    · exact ⟨_, _, b, b', a1, c1, by simp⟩
    · exact absurd a2 c3
  · rcases v2 with ⟨d', b', c1, c2, c3, c4, c5⟩ | ⟨b', c1, c2⟩ | ⟨b', c1, c2, c3⟩
    · exact absurd ⟨d', anyCrc_more c4⟩ a2
    · exact absurd c2 a3
    · exact ⟨_, _, b, b', a1, c1, by simp⟩

/-- C118: this bound is reached: for all data of one group more than fits there is a stream of that length for which the decoder reports the
lack of room, but not without its last word. -/
theorem C118_ocl_input_exact (n : Nat) (d : List Byte) (hd : d.length = 8 * (n + 1)) : ∃ s : List Byte, s.length = 8 * ((69 * (n + 1) + 63) / 64) ∧
    ∀ (e : Endian) (buf : List Byte) (olen : Nat), olen / 8 = n → olen ≤ buf.length → 8 * n + 2 ≤ buf.length →
      (∃ b, oclCore e (some s) 0 s.length buf olen = .ret (some .ENOSPC) 0 b) ∧
      ∃ b, oclCore e (some s) 0 (s.length - 8) buf olen = .ret (some .EINVAL) 0 b := by
  have hv := raw_valid (n + 1) d hd
  have hrun : Run [] (raw (n + 1) d) d := by simpa using raw_run (n + 1) d [] hd
  have hbits := raw_bits (n + 1) d hd
  obtain ⟨s, h1, h2⟩ := exists_bytes (8 * ((69 * (n + 1) + 63) / 64)) ((raw (n + 1) d).flatMap Op.bits ++
      List.replicate (64 * ((69 * (n + 1) + 63) / 64) - 69 * (n + 1)) false) (by
    rw [List.length_append, hbits, List.length_replicate]; omega)
  refine ⟨s, h2, fun e buf olen ho hb hp => ⟨?_, ?_⟩⟩
  · have hL : LongerThan (s.take s.length) olen := by
      rw [List.take_length]
      exact ⟨raw (n + 1) d, d, _, ⟨fun o h => (hv o h).1, hrun⟩, fun o h => (hv o h).2, by omega, h1⟩
    rcases C73_ocl_verdict e s buf s.length olen (by omega) (Nat.le_refl _) hb (by omega) with ⟨d', b', -, -, -, -, c5⟩ | ⟨b', c1, -⟩ | ⟨b', -, -, c3⟩
    · exact absurd hL c5
    · exact ⟨b', c1⟩
    · exact absurd hL c3
  · have hlen : (bytesBits (s.take (s.length - 8))).length < 69 * (n + 1) := by
      rw [length_bytesBits, List.length_take]; omega
    have key : ∀ ops R', (∀ op ∈ ops, op.Valid) → bytesBits (s.take (s.length - 8)) = ops.flatMap Op.bits ++ R' →
        ∃ op t Q, raw (n + 1) d = ops ++ op :: t ∧ R' ++ bytesBits (s.drop (s.length - 8)) = op.bits ++ Q := by
      intro ops R' hvo hb
      have h3 : bytesBits s = ops.flatMap Op.bits ++ (R' ++ bytesBits (s.drop (s.length - 8))) := by
        rw [← List.append_assoc, ← hb, ← bytesBits_append, List.take_append_drop]
      rw [h1] at h3
      rcases ops_prefix (fun o h => (hv o h).1) hvo h3 with ⟨t, rfl⟩ | ⟨op, t, h4, h5⟩
      · have := congrArg List.length hb
        rw [List.flatMap_append, List.length_append, List.length_append, hbits] at this
        omega
      · exact ⟨op, t, _, h4, h5⟩
    rcases C73_ocl_verdict e s buf (s.length - 8) olen (by omega) (by omega) hb (by omega) with ⟨d', b', -, -, -, ⟨ops, c, R, g1, g2, g3⟩, -⟩ | ⟨b', -, ops, d', R, g1, g2, g3, g4⟩ | ⟨b', c1, -⟩
    · obtain ⟨op, t, Q, k1, k2⟩ := key ops _ g1.1 g3
      rw [List.append_assoc] at k2
      exact (Dec.end_ne_op (hv op (by rw [k1]; simp)).1 k2).elim
    · obtain ⟨op, t, Q, k1, -⟩ := key ops _ g1.1 g4
      rw [k1] at hrun hv
      have := run_rest (fun o h => (hv o h).1) (fun o h => (hv o h).2) g1.2 hrun
      simp only [List.length_cons] at this
      omega
    · exact ⟨b', c1⟩

/-- With room for 16 bytes, 32 bytes of input decide. -/
example (e : Endian) (inp buf : List Byte) (h : inp.length = 1000) (hb : buf.length = 24) : ∃ r n b b',
    oclCore e (some inp) 0 1000 buf 16 = .ret r n b ∧ oclCore e (some inp) 0 32 buf 16 = .ret r n b' ∧ (r = none → b' = b) :=
  C118_ocl_input e inp buf 1000 16 rfl (by omega) (by omega) (by omega)

end Props
end Lib842
