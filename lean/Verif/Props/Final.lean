import Verif.Proofs.Grow
import Verif.Props.NoRoom
/-!
# Answers that more input does not change (C97)
-/

namespace Lib842.Props
open Spec

/-- C97, exactly: the answer of `sw842_decompress` (the return code, the length, the whole buffer, or undefined behaviour) is the same for every
continuation of the input if and only if it is not `-EOVERFLOW`. -/
theorem C97_sw_final (e : Endian) (addr : Nat) (inp buf : List Byte) :
    (∀ more, sw842Decompress e addr (inp ++ more) buf = sw842Decompress e addr inp buf) ↔
      ∀ n b, sw842Decompress e addr inp buf ≠ .ret (some .EOVERFLOW) n b := by
  constructor
  · intro h n b hc
    have := h (List.replicate 20 0xff)
    rw [hc] at this
    exact sw_ones e addr inp buf b n this
  · exact fun h more => sw_grow e addr inp more buf h

/-- C97: so a reader that gets the input in pieces can call `sw842_decompress` after each: until the first answer other than `-EOVERFLOW` the input
is too short, and this answer is that for the whole input. -/
theorem C97_sw_incremental (e : Endian) (addr : Nat) (inp buf : List Byte) (k : Nat) :
    (∃ n b, sw842Decompress e addr (inp.take k) buf = .ret (some .EOVERFLOW) n b) ∨
      sw842Decompress e addr (inp.take k) buf = sw842Decompress e addr inp buf := by
  by_cases h : ∃ n b, sw842Decompress e addr (inp.take k) buf = .ret (some .EOVERFLOW) n b
  · exact .inl h
  · right
    have := (C97_sw_final e addr (inp.take k) buf).2 (fun n b hc => h ⟨n, b, hc⟩) (inp.drop k)
    rw [List.take_append_drop] at this
    exact this.symm

/-- C97: `-EOVERFLOW` for an input is `-EOVERFLOW` for all of its beginnings. -/
theorem C97_sw_overflow_prefix (e : Endian) (addr : Nat) (inp buf : List Byte) (n : Nat) (b : List Byte)
    (h : sw842Decompress e addr inp buf = .ret (some .EOVERFLOW) n b) (k : Nat) :
    ∃ n b, sw842Decompress e addr (inp.take k) buf = .ret (some .EOVERFLOW) n b := by
  rcases C97_sw_incremental e addr inp buf k with h1 | h1
  · exact h1
  · exact ⟨n, b, h1.trans h⟩

/-- C97: 20 bytes more always lead to an answer: there is no input for which `-EOVERFLOW` is the answer whatever follows. -/
theorem C97_sw_overflow_ends (e : Endian) (addr : Nat) (inp buf : List Byte) :
    ∃ more, more.length = 20 ∧ ∀ n b, sw842Decompress e addr (inp ++ more) buf ≠ .ret (some .EOVERFLOW) n b :=
  ⟨List.replicate 20 0xff, by simp, fun n b => sw_ones e addr inp buf b n⟩

/-- C97 for `optsw842_decompress`: success (the data, in the first `n` bytes) and `-ENOSPC` are final. -/
theorem C97_opt_final (e : Endian) (ain aout : Nat) (hal : ain % 8 = 0 ∧ aout % 8 = 0) (inp more buf : List Byte) (rc : Option Errno) (n : Nat)
    (b : List Byte) (h : optsw842Decompress e ain aout inp buf = .ret rc n b) (hrc : rc ≠ some .EINVAL) :
    ∃ b', optsw842Decompress e ain aout (inp ++ more) buf = .ret rc n b' ∧ b'.take n = b.take n := by
  obtain ⟨d, b1, h1, -⟩ | ⟨b1, h1, h2⟩ | ⟨b1, h1, -⟩ := C73_opt_verdict e ain aout hal inp buf
  · rw [h] at h1
    cases h1
    exact C23_opt_appended_ignored e ain aout inp more buf _ b h
  · rw [h] at h1
    cases h1
    have h3 : Overflows ((inp ++ more).take (8 * ((inp ++ more).length / 8))) buf.length := by
      obtain ⟨S, hS⟩ : ∃ S, (inp ++ more).take (8 * ((inp ++ more).length / 8)) = inp.take (8 * (inp.length / 8)) ++ S := by
        have hle : 8 * (inp.length / 8) ≤ 8 * ((inp ++ more).length / 8) := by
          rw [List.length_append]
          omega
        refine ⟨((inp ++ more).take (8 * ((inp ++ more).length / 8))).drop (8 * (inp.length / 8)), ?_⟩
        have h5 : inp.take (8 * (inp.length / 8)) = ((inp ++ more).take (8 * ((inp ++ more).length / 8))).take (8 * (inp.length / 8)) := by
          rw [List.take_take, Nat.min_eq_left hle, List.take_append_of_le_length (by omega)]
        rw [h5, List.take_append_drop]
      rw [hS]
      obtain ⟨ops, d, rest, he, hs, hd, hcase⟩ := h2
      refine ⟨ops, d, rest ++ bytesBits S, he, hs, hd, ?_⟩
      rcases hcase with ⟨o, ho, hk, hb⟩ | ⟨r, hr, hne, hk, hb⟩
      · exact .inl ⟨o, ho, hk, by rw [bytesBits_append, hb]; simp only [List.append_assoc]⟩
      · exact .inr ⟨r, hr, hne, hk, by rw [bytesBits_append, hb]; simp only [List.append_assoc]⟩
    obtain ⟨d, b', h4⟩ | ⟨b', h4, -⟩ | ⟨b', h4⟩ := C73_opt_verdict e ain aout hal (inp ++ more) buf
    · exact absurd h3 h4.2.2.2.2
    · exact ⟨b', h4, by simp⟩
    · exact absurd h3 h4.2.2
  · rw [h] at h1
    cases h1
    exact absurd rfl hrc

/-- C97 fails for `-EINVAL` of `optsw842_decompress`, which is also its answer for an input that is too short. -/
theorem C97_opt_false : ∃ (inp more buf : List Byte), view (optsw842Decompress .little 0 0 inp buf) = some (some .EINVAL, 0, []) ∧
    view (optsw842Decompress .little 0 0 (inp ++ more) buf) = some (none, 32, exIn8) :=
  ⟨exOut8.take 16, exOut8.drop 16, List.replicate 32 0xaa, by decide +kernel⟩

/-- Final answers: an op that does not exist; too little room; a wrong checksum.  Not final: a stream without its last byte, or nothing at all. -/
example : view (sw842Decompress .little 0 [0xff] (List.replicate 8 0xaa)) = some (some .EINVAL, 0, []) ∧
    view (sw842Decompress .little 0 (exOut.take 10) (List.replicate 7 0xaa)) = some (some .ENOSPC, 0, []) ∧
    view (sw842Decompress .little 0 [0xf0, 0, 0, 0, 8] []) = some (some .EINVAL, 0, []) ∧
    view (sw842Decompress .little 0 (exOut.take 18) (List.replicate 19 0xaa)) = some (some .EOVERFLOW, 0, []) ∧
    view (sw842Decompress .little 0 [] []) = some (some .EOVERFLOW, 0, []) := by
  refine ⟨?_, ?_, ?_, ?_, ?_⟩ <;> decide +kernel

/-- A final answer of the optimised decompressor -/
example : view (optsw842Decompress .little 0 0 (exOut8.take 8) (List.replicate 7 0xaa)) = some (some .ENOSPC, 0, []) := by decide +kernel

end Lib842.Props
