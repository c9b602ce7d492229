import Verif.Model.SwStrict
import Verif.Props.Ocl
import Verif.Proofs.NewWords
/-!
# C96: `SW842_STRICT`
-/

namespace Lib842.Props
open Spec

/-- C96: whatever the strict compressor returns successfully is in the hardware format, and `sw842_decompress`, `optsw842_decompress` with
any buffers and the OpenCL decoder restore the data. -/
theorem C96_strict_hw (e : Endian) (addr : Nat) (j : CompJunk) (x buf : List Byte) (n : Nat) (b : List Byte)
    (h : strictCompress e addr j x buf = .ret none n b) (hx : x.length ≤ 0xffffffff) :
    HwDecodes (b.take n) x ∧ ∀ (e' : Endian) (ain aout : Nat) (out : List Byte), x.length ≤ out.length →
      (∃ o, sw842Decompress e' aout (b.take n) out = .ret none x.length o ∧ o.take x.length = x) ∧
      (∃ o, optsw842Decompress e' ain aout (b.take n) out = .ret none x.length o ∧ o.take x.length = x) ∧
      oclCore e' (some (b.take n)) 0 n out out.length = .ret none x.length (x ++ out.drop x.length) := by
  unfold strictCompress at h
  split at h
  · cases h
  rename_i h8
  have h8' : x.length % 8 = 0 := by omega
  have hw := C26_sw_hw_compatible e addr j x buf n b h h8'
  obtain ⟨-, hn8, -, hnb, -⟩ := C07_sw_length_contract e e addr addr j j x buf buf n n b b h h
  refine ⟨hw, fun e' ain aout out ho => ⟨?_, ?_, ?_⟩⟩
  · obtain ⟨o, h1, h2, -⟩ := C01_sw_round_trip e e' addr aout j x buf out n b hx h ho
    exact ⟨o, h1, h2⟩
  · obtain ⟨o, h1, h2, -⟩ := C03_sw_then_opt e e' addr ain aout j x buf out n b h8' h ho (.inr hx)
    exact ⟨o, h1, h2⟩
  · exact C43_ocl_accepts_format e' (b.take n) out x n out.length hn8 (by rw [List.length_take]; omega)
      (by rw [List.take_take, Nat.min_self]; exact hw) ho ho

/-- C96: the strict compressor refuses exactly the inputs for which the usual one would give a stream that is not in the hardware format. -/
theorem C96_strict_exact (e : Endian) (addr : Nat) (j : CompJunk) (x buf : List Byte) (n : Nat) (b : List Byte)
    (h : sw842Compress e addr j x buf = .ret none n b) :
    (strictCompress e addr j x buf = .ret none n b ∧ HwDecodes (b.take n) x) ∨
    ((∃ b', strictCompress e addr j x buf = .ret (some .EINVAL) 0 b') ∧ ∀ d, ¬ HwDecodes (b.take n) d) := by
  by_cases h8 : x.length % 8 = 0
  · left
    refine ⟨?_, C26_sw_hw_compatible e addr j x buf n b h h8⟩
    unfold strictCompress
    rw [if_neg (by omega)]
    exact h
  · right
    refine ⟨⟨buf, by unfold strictCompress; rw [if_pos h8]⟩, fun d hd => ?_⟩
    obtain ⟨-, -, -, -, hb⟩ := sw842Compress_ok h
    have hdx := C13_format_unambiguous _ _ _ hd.decodes (streamBits_decodes hb)
    have := (hw_size hd).1
    rw [hdx] at this
    exact h8 this

/-- C96: without `SW842_STRICT`, what `sw842_compress` produces from an input whose length is not a multiple of 8 is refused by
`optsw842_decompress` for aligned buffers of any size. -/
theorem C96_usual_refused (e e' : Endian) (addr ain aout : Nat) (j : CompJunk) (x buf out : List Byte) (n : Nat) (b : List Byte)
    (h : sw842Compress e addr j x buf = .ret none n b) (h8 : x.length % 8 ≠ 0) (hal : ain % 8 = 0 ∧ aout % 8 = 0) :
    ¬ ∃ m o, optsw842Decompress e' ain aout (b.take n) out = .ret none m o := by
  rintro ⟨m, o, hm⟩
  have hd := (C14_opt_success_is_decoding e' ain aout (b.take n) out m o hal hm).1
  rcases C96_strict_exact e addr j x buf n b h with ⟨h1, h2⟩ | ⟨-, h2⟩
  · exact h8 (hw_size h2).1
  · obtain ⟨-, hn8, -, hnb, -⟩ := C07_sw_length_contract e e addr addr j j x buf buf n n b b h h
    rw [List.length_take, Nat.min_eq_left hnb, show 8 * (n / 8) = n by omega, List.take_take, Nat.min_self] at hd
    exact h2 _ hd

example : exIn.length % 8 ≠ 0 ∧ strictCompress .little 3 junk0 exIn (List.replicate 64 0xaa) =
    .ret (some .EINVAL) 0 (List.replicate 64 0xaa) ∧
    view (sw842Compress .little 3 junk0 exIn (List.replicate 64 0xaa)) = some (none, 24, exOut) := by decide +kernel
example : view (strictCompress .big 3 junk1 exIn8 (List.replicate 24 0xaa)) =
    some (none, 24, [2, 0x0a, 0x12, 0x1a, 0x22, 0x2a, 0x32, 0x3a, 0x46, 0xc0, 0x70, 8, 8, 0x10, 7, 0x9e, 0x57, 0xf8, 0xac, 4, 0, 0, 0, 0]) := by decide +kernel

end Lib842.Props
