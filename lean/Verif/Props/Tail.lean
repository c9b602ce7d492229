import Verif.Proofs.Tail
import Verif.Props.Opt
/-!
# C95: what lies behind the result in the output buffer

`buf` is the output buffer before the call, `b` afterwards, `n` the length that the call reports.
-/

namespace Lib842.Props
open Spec

/-- C95: a successful `sw842_decompress` leaves everything behind the data as it was. -/
theorem C95_sw_decompress (e : Endian) (addr : Nat) (inp buf : List Byte) (n : Nat) (b : List Byte)
    (h : sw842Decompress e addr inp buf = .ret none n b) : b.drop n = buf.drop n :=
  sw_tail e addr _ inp buf h

/-- C95: so does a successful `optsw842_decompress`, whatever the alignment. -/
theorem C95_opt_decompress (e : Endian) (ain aout : Nat) (inp buf : List Byte) (n : Nat) (b : List Byte)
    (h : optsw842Decompress e ain aout inp buf = .ret none n b) : b.drop n = buf.drop n :=
  opt_tail e ain aout _ inp buf h

/-- C95: so does a successful `optsw842_compress` with aligned buffers. -/
theorem C95_opt_compress (e : Endian) (ain aout : Nat) (j : OptJunk) (jsw : CompJunk) (x buf : List Byte) (n : Nat) (b : List Byte)
    (hal : ain % 8 = 0 ∧ aout % 8 = 0) (h : optsw842Compress e ain aout j jsw x buf = .ret none n b) : b.drop n = buf.drop n :=
  optc_tail e _ j jsw x buf hal h

/-- C95: `sw842_compress` does not: compressing two bytes gives 8 bytes, but the three bytes behind them are cleared. -/
theorem C95_sw_compress_clears :
    sw842Compress .little 0 junk0 [1, 2] (List.replicate 12 0xaa) =
      .ret none 8 ([0xea, 1, 2, 0xf6, 0xdc, 0xdf, 0xd5, 0x90] ++ [0, 0, 0, 0xaa]) := by decide +kernel

/-- C95: the claim is false for `sw842_compress`. -/
theorem C95_sw_compress_false :
    ¬ ∀ (e : Endian) (addr : Nat) (j : CompJunk) (x buf : List Byte) (n : Nat) (b : List Byte),
      sw842Compress e addr j x buf = .ret none n b → b.drop n = buf.drop n := by
  intro h
  have := h _ _ _ _ _ _ _ C95_sw_compress_clears
  revert this
  decide

/-- C95: nor is it true for `optsw842_compress` if `in` is not aligned. -/
theorem C95_opt_compress_false :
    ¬ ∀ (e : Endian) (ain aout : Nat) (j : OptJunk) (jsw : CompJunk) (x buf : List Byte) (n : Nat) (b : List Byte),
      optsw842Compress e ain aout j jsw x buf = .ret none n b → b.drop n = buf.drop n := by
  intro h
  have h1 : optsw842Compress .little 4 0 ojunk0 junk0 (List.replicate 8 0) (List.replicate 10 0xaa) =
      .ret none 8 ([0xe7, 0x80, 0, 0, 0, 0, 0, 0] ++ [0, 0xaa]) := by decide +kernel
  have := h _ _ _ _ _ _ _ _ _ h1
  revert this
  decide

/-- C95: `sw842_compress` changes at most three bytes behind the stream, and sets them to zero. -/
theorem C95_sw_compress_partial (e : Endian) (addr : Nat) (j : CompJunk) (x buf : List Byte) (n : Nat) (b : List Byte)
    (h : sw842Compress e addr j x buf = .ret none n b) :
    b.drop (n + 3) = buf.drop (n + 3) ∧ ∀ k, n ≤ k → b[k]? = buf[k]? ∨ b[k]? = some 0 := by
  obtain ⟨h1, h2⟩ := swc_tail e addr _ j x buf h
  refine ⟨List.ext_getElem? fun k => ?_, h1⟩
  rw [List.getElem?_drop, List.getElem?_drop, h2 _ (by omega)]

/-- C95: `optsw842_compress` with any buffers changes at most three bytes behind the stream, and sets them to zero. -/
theorem C95_opt_compress_partial (e : Endian) (ain aout : Nat) (j : OptJunk) (jsw : CompJunk) (x buf : List Byte) (n : Nat) (b : List Byte)
    (h : optsw842Compress e ain aout j jsw x buf = .ret none n b) :
    b.drop (n + 3) = buf.drop (n + 3) ∧ ∀ k, n ≤ k → b[k]? = buf[k]? ∨ b[k]? = some 0 := by
  by_cases hal : ain % 8 = 0 ∧ aout % 8 = 0
  · have h1 := C95_opt_compress e ain aout j jsw x buf n b hal h
    refine ⟨by rw [← List.drop_drop, h1, List.drop_drop], fun k hk => .inl ?_⟩
    have := congrArg (fun l => l[k - n]?) h1
    simp only [List.getElem?_drop, show n + (k - n) = k by omega] at this
    exact this
  · unfold optsw842Compress optsw842CompressF at h
    split at h
    · cases h
    rw [if_pos (by omega)] at h
    exact C95_sw_compress_partial e ain jsw x buf n b h

/-! ### The hypotheses can be met -/

example : sw842Decompress .little 0 exOut (List.replicate 22 0xaa) = .ret none 19 (exIn ++ [0xaa, 0xaa, 0xaa]) := by decide +kernel

example : optsw842Decompress .little 0 0 exOut8 (List.replicate 34 0xaa) = .ret none 32 (exIn8 ++ [0xaa, 0xaa]) := by decide +kernel

example : (optsw842Compress .little 0 0 ojunk0 junk0 exIn8 (List.replicate 28 0xaa)) = .ret none 24 (exOut8 ++ [0xaa, 0xaa, 0xaa, 0xaa]) := by decide +kernel

end Lib842.Props
