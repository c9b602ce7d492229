import Verif.Proofs.WorkBoundOpt
import Verif.Props.WorkBound
import Verif.Props.NoRoom
/-!
# How much of its input `optsw842_decompress` looks at (C118)
-/

namespace Lib842
open Spec Work

namespace Props

/-- C118: with room for `n` bytes, `optsw842_decompress` looks at `69 * (n / 8) + 37` bits of its input at most, rounded up to words of 64 bits. -/
theorem C118_opt_input (e : Endian) (ain aout : Nat) (hal : ain % 8 = 0 ∧ aout % 8 = 0) (inp buf : List Byte) :
    optsw842Decompress e ain aout (inp.take (8 * ((69 * (buf.length / 8) + 100) / 64))) buf = optsw842Decompress e ain aout inp buf := by
  by_cases hle : inp.length ≤ 8 * ((69 * (buf.length / 8) + 100) / 64)
  · rw [List.take_of_length_le hle]
  · rw [← (C118_opt_steps e ain aout (buf.length / 8 + 1) hal inp buf (by omega)).2,
      ← (C118_opt_steps e ain aout (buf.length / 8 + 1) hal (inp.take _) buf (by omega)).2]
    exact optF_cut e hal _ (by omega) (by omega) (by omega)

/-- C118: this bound is reached, for any data of whole words: there is a stream of that length which is decompressed, but not without its last
byte. -/
theorem C118_opt_input_exact (n : Nat) (d : List Byte) (hd : d.length = 8 * n) : ∃ s : List Byte, s.length = 8 * ((69 * n + 100) / 64) ∧
    HwDecodes s d ∧ ∀ (e : Endian) (ain aout : Nat) (buf : List Byte), ain % 8 = 0 ∧ aout % 8 = 0 → buf.length = 8 * n →
      optsw842Decompress e ain aout s buf = .ret none d.length d ∧
      ∃ b, optsw842Decompress e ain aout (s.take (s.length - 1)) buf = .ret (some .EINVAL) 0 b := by
  obtain ⟨s, hl, R, hs⟩ := raw_stream n d hd
  have hx : Expands (raw n d) d := ⟨fun o h => (raw_valid n d hd o h).1, by simpa using raw_run n d [] hd⟩
  have hw : HwDecodes s d := ⟨raw n d, R, hx, fun o h => (raw_valid n d hd o h).2, hs⟩
  refine ⟨s, hl, hw, fun e ain aout buf hal hb => ⟨?_, ?_⟩⟩
  · obtain ⟨b, h1, h2, h3⟩ := optDecompress_decodes e hal s buf (data := d) (by
      unfold ODecomp.words
      rwa [List.take_of_length_le (by omega)])
    rw [if_neg (by omega)] at h3
    have h4 := h2 (by omega)
    rw [List.take_of_length_le (by omega)] at h4
    rw [h3, h4]
  · rcases C73_opt_verdict e ain aout hal (s.take (s.length - 1)) buf with ⟨d', b, -, -, -, ⟨ops, R', h1, -, h2⟩, -⟩ | ⟨b, h, -⟩ | ⟨b, h, -⟩
    · exfalso
      have hlen := congrArg List.length h2
      rw [length_bytesBits, List.length_append, List.length_append] at hlen
      have ht : (trailer d').length = 37 := by simp [trailer]
      simp only [List.length_take] at hlen h2
      rw [List.take_take] at h2
      generalize hk : min (8 * (min (s.length - 1) s.length / 8)) (s.length - 1) = k at h2
      have h3 : bytesBits s = bytesBits (s.take k) ++ bytesBits (s.drop k) := by rw [← bytesBits_append, List.take_append_drop]
      rw [h2, hs, List.append_assoc _ R'] at h3
      have h4 := (ops_unique hx h1 h3).1
      have h5 := raw_bits n d hd
      rw [h4] at h5
      omega
    · exact absurd h (C73_opt_room e ain aout hal s d buf ⟨raw n d, R, hx, hs⟩ _ (by omega) _ _)
    · exact ⟨b, h⟩

/-- With room for 16 bytes, the call sees the first 24 bytes of its input. -/
example (e : Endian) (inp buf : List Byte) (h : inp.length = 1000) (hb : buf.length = 16) :
    (inp.take 24).length = 24 ∧ optsw842Decompress e 64 128 (inp.take 24) buf = optsw842Decompress e 64 128 inp buf := by
  have := C118_opt_input e 64 128 (by decide) inp buf
  rw [hb] at this
  exact ⟨by simp [h], this⟩

end Props
end Lib842
