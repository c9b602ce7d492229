import Verif.Proofs.BranchFree
import Verif.Props.Opt
/-!
# C63: the branch-free configuration of the optimised codec

`BRANCH_FREE` 1 selects other code for the templates, in both directions.  It must not be
observable.  That code shifts 64-bit words by 64, so what it does depends on the meaning of
such a shift (`OverShift`).
-/

namespace Lib842.Props
open Lib842 Spec

/-- No difference that a caller may rely on: the calls are equal, or they fail with the same
code and the same `*olen` (and may leave different bytes in the output buffer). -/
def SameResult (a b : Call) : Prop :=
  a = b ∨ ∃ er n ba bb, a = .ret (some er) n ba ∧ b = .ret (some er) n bb

/-- C63: if shifting right by 64 gives any value at all, decompression does the same. -/
theorem C63_decompress_same_partial (S : OverShift) (hS : ∀ x, S.shr x 64 ≠ none) (e : Endian) (ain aout : Nat)
    (inp buf : List Byte) :
    SameResult (optsw842DecompressBF S e ain aout inp buf) (optsw842Decompress e ain aout inp buf) := by
  have hS' : S.Right := fun x => Option.ne_none_iff_exists'.1 (hS x)
  unfold optsw842DecompressBF optsw842Decompress optsw842DecompressF
  simp only
  split
  · exact .inl rfl
  · rcases bfBody_same hS' e aout (8 * inp.length + 1) (optInit_inv inp buf) with h | ⟨er, p, q, h1, h2⟩
    · rw [h]; exact .inl rfl
    · rw [h1, h2]; exact .inr ⟨er, 0, p.buf, q.buf, rfl, rfl⟩

/-- C63: if shifting 0 left by 64 gives 0, compression does the same, whatever is in the
memory that the compressor does not initialise. -/
theorem C63_compress_same_partial (S : OverShift) (hS : S.shl 0#64 64 = some 0#64) (e : Endian) (ain aout : Nat)
    (j j' : OptJunk) (jsw : CompJunk) (x buf : List Byte) :
    SameResult (optsw842CompressBF S e ain aout j jsw x buf) (optsw842Compress e ain aout j' jsw x buf) := by
  unfold optsw842CompressBF optsw842Compress
  simp only
  by_cases h8 : x.length % 8 ≠ 0
  · unfold optsw842CompressF
    rw [if_pos h8, if_pos h8]; exact .inl rfl
  by_cases hal : ain % 8 ≠ 0 ∨ aout % 8 ≠ 0
  · unfold optsw842CompressF
    rw [if_neg h8, if_pos hal, if_neg h8, if_pos hal]; exact .inl rfl
  rw [if_neg h8, if_neg hal]
  by_cases hne : x = []
  · subst hne
    rw [optCompressF_nil e _ j' jsw buf (by omega)]
    left
    have : ocompBody (.bf S e) e ain (([] : List Byte).length / 8 + 1) [] (ocompInit j [] buf) = .ub := by
      unfold ocompBody
      rw [M.get_bind_apply]
      cases e <;> rfl
    rw [this]
  · obtain ⟨b, hl, hr⟩ := ocompBody_res e (OConf.bf_ok (S := S) hS e) 0 ain j buf (not_not.1 h8) hne
    obtain ⟨b', hl', hr'⟩ := optCompressF_eq e 0 (ain := ain) (aout := aout) j' jsw buf (by omega) (not_not.1 h8) hne
    rw [Nat.zero_add] at hr hr'
    change SameResult (ocompRet _) _
    by_cases hfit : paddedSize (ostreamBits x).length ≤ buf.length
    · rw [if_pos hfit] at hr hr'
      rw [hr.1, hr'.1]
      left
      have h1 : b.take (paddedSize (ostreamBits x).length) = b'.take (paddedSize (ostreamBits x).length) :=
        bytesBits_inj (by rw [hr.2.1, hr'.2.1])
      rw [← List.take_append_drop (paddedSize (ostreamBits x).length) b, h1, hr.2.2, ← hr'.2.2,
        List.take_append_drop]
    · rw [if_neg hfit] at hr hr'
      rw [hr, hr']
      exact .inr ⟨_, _, _, _, rfl, rfl⟩

/-- The two hypotheses hold for the shift instructions of x86-64 and ARM, and of POWER. -/
example : (∀ x, OverShift.mod64.shr x 64 ≠ none) ∧ OverShift.mod64.shl 0#64 64 = some 0#64 ∧
    (∀ x, OverShift.zero.shr x 64 ≠ none) ∧ OverShift.zero.shl 0#64 64 = some 0#64 := by
  refine ⟨fun x => ?_, by decide, fun x => ?_, by decide⟩ <;> simp [OverShift.mod64, OverShift.zero]

/-- C63: round trip, with either configuration on either side. -/
theorem C63_round_trip_partial (S S' : OverShift) (hS : S.shl 0#64 64 = some 0#64) (hS' : ∀ x, S'.shr x 64 ≠ none)
    (e e' : Endian) (ain aout ain' aout' : Nat) (j : OptJunk) (jsw : CompJunk)
    (x buf buf' : List Byte) (n : Nat) (b : List Byte)
    (hc : optsw842CompressBF S e ain aout j jsw x buf = .ret none n b) (hcap : x.length ≤ buf'.length)
    (hlim : (ain' % 8 = 0 ∧ aout' % 8 = 0) ∨ x.length ≤ 0xffffffff) :
    (∃ b', optsw842DecompressBF S' e' ain' aout' (b.take n) buf' = .ret none x.length b' ∧
      b'.take x.length = x ∧ b'.length = buf'.length) ∧
    (∃ b', optsw842Decompress e' ain' aout' (b.take n) buf' = .ret none x.length b' ∧
      b'.take x.length = x ∧ b'.length = buf'.length) := by
  have hstd : optsw842Compress e ain aout j jsw x buf = .ret none n b := by
    rcases C63_compress_same_partial S hS e ain aout j j jsw x buf with h | ⟨er, k, ba, bb, h1, -⟩
    · rw [← h, hc]
    · rw [hc] at h1; cases h1
  obtain ⟨b', h1, h2, h3⟩ := C02_opt_round_trip_partial e e' ain aout ain' aout' j jsw x buf buf' n b hstd hcap hlim
  refine ⟨⟨b', ?_, h2, h3⟩, ⟨b', h1, h2, h3⟩⟩
  rcases C63_decompress_same_partial S' hS' e' ain' aout' (b.take n) buf' with h | ⟨er, k, ba, bb, -, h⟩
  · rw [h, h1]
  · rw [h1] at h; cases h

/-- The example of `ex_opt_compress` and `ex_opt_decompress`; it uses the 8-byte literal, 4-byte
references and a repeat. -/
example : view (optsw842CompressBF .mod64 .little 0 0 ojunk0 junk0 exIn8 (List.replicate 40 0xaa)) =
    some (none, 24, exOut8) := by decide +kernel
example : optsw842DecompressBF .zero .little 0 0 exOut8 (List.replicate 33 0xaa) =
    .ret none 32 (exIn8 ++ [0xaa]) := by decide +kernel

/-- C63 without an assumption about shifts is false: by the C++ standard the branch-free
decompressor has undefined behaviour on a stream that the default one decodes
(842_decompress.cpp 227, 244: `>> (64 - 0)`). -/
theorem C63_decompress_standard_false :
    ¬ ∀ (e : Endian) (ain aout : Nat) (inp buf : List Byte),
      SameResult (optsw842DecompressBF .strict e ain aout inp buf) (optsw842Decompress e ain aout inp buf) := by
  intro h
  have h1 : optsw842DecompressBF .strict .little 0 0 exOut8 (List.replicate 33 0xaa) = .ub := by decide +kernel
  have := h .little 0 0 exOut8 (List.replicate 33 0xaa)
  rw [h1, ex_opt_decompress] at this
  rcases this with h | ⟨_, _, _, _, h, -⟩ <;> cases h

/-- Likewise for the compressor, on every block that contains nothing known (842_compress.cpp
468: `paramword <<= 64`). -/
theorem C63_compress_standard_false :
    ¬ ∀ (e : Endian) (ain aout : Nat) (j : OptJunk) (jsw : CompJunk) (x buf : List Byte),
      SameResult (optsw842CompressBF .strict e ain aout j jsw x buf) (optsw842Compress e ain aout j jsw x buf) := by
  intro h
  have h1 : optsw842CompressBF .strict .little 0 0 ojunk0 junk0 exIn8 (List.replicate 40 0xaa) = .ub := by
    decide +kernel
  have h2 := ex_opt_compress
  have := h .little 0 0 ojunk0 junk0 exIn8 (List.replicate 40 0xaa)
  rw [h1] at this
  rcases this with h | ⟨_, _, _, _, h, -⟩
  · rw [← h] at h2; cases h2
  · cases h

end Lib842.Props
