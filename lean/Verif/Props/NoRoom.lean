import Verif.Proofs.Overflow
import Verif.Props.Torn
/-!
# Exactly when `optsw842_decompress` answers `-ENOSPC` (C73, C92)

`Overflows` is in `SpecRoom.lean`: the input comes to valid ops, and then to an op for which there is no room.
-/

namespace Lib842.Props
open Spec

/-- C73: `optsw842_decompress` (aligned buffers) answers `-ENOSPC` exactly if the input asks for more room. -/
theorem C73_opt_nospace_exact (e : Endian) (ain aout : Nat) (hal : ain % 8 = 0 ∧ aout % 8 = 0) (inp buf : List Byte) :
    (∃ n b, optsw842Decompress e ain aout inp buf = .ret (some .ENOSPC) n b) ↔ Overflows (inp.take (8 * (inp.length / 8))) buf.length :=
  Codes.opt_full_iff e ain aout hal inp buf

/-- C73, the verdict of `optsw842_decompress` on every input and buffer: exactly one of the three answers applies. -/
theorem C73_opt_verdict (e : Endian) (ain aout : Nat) (hal : ain % 8 = 0 ∧ aout % 8 = 0) (inp buf : List Byte) :
    (∃ d b, optsw842Decompress e ain aout inp buf = .ret none d.length b ∧ b.take d.length = d ∧ d.length ≤ buf.length ∧
      HwDecodes (inp.take (8 * (inp.length / 8))) d ∧ ¬ Overflows (inp.take (8 * (inp.length / 8))) buf.length) ∨
    (∃ b, optsw842Decompress e ain aout inp buf = .ret (some .ENOSPC) 0 b ∧ Overflows (inp.take (8 * (inp.length / 8))) buf.length) ∨
    (∃ b, optsw842Decompress e ain aout inp buf = .ret (some .EINVAL) 0 b ∧ ¬ (∃ d, HwDecodes (inp.take (8 * (inp.length / 8))) d) ∧
      ¬ Overflows (inp.take (8 * (inp.length / 8))) buf.length) := by
  have hr := optDecompress_res e hal inp buf
  have hex := C73_opt_nospace_exact e ain aout hal inp buf
  generalize hx : optsw842Decompress e ain aout inp buf = x at hr hex
  cases hr with
  | @ok d b h1 hl hbl h2 =>
    refine .inl ⟨d, b, rfl, h2, by omega, h1, fun h => ?_⟩
    obtain ⟨n, b', h⟩ := hex.mpr h
    cases h
  | @err er b _ =>
    rcases C73_opt e ain aout hal inp buf er 0 b hx with ⟨rfl, h2⟩ | ⟨rfl, -⟩
    · refine .inr (.inr ⟨b, rfl, h2, fun h => ?_⟩)
      obtain ⟨n, b', h⟩ := hex.mpr h
      cases h
    · exact .inr (.inl ⟨b, rfl, hex.mp ⟨0, b, rfl⟩⟩)

/-- C73: what is answered with `-ENOSPC` is answered with it for every smaller buffer: doubling the size loses nothing. -/
theorem C73_opt_nospace_mono (e e' : Endian) (ain aout ain' aout' : Nat) (hal : ain % 8 = 0 ∧ aout % 8 = 0) (hal' : ain' % 8 = 0 ∧ aout' % 8 = 0)
    (inp buf buf' : List Byte) (n : Nat) (b : List Byte) (h : optsw842Decompress e ain aout inp buf = .ret (some .ENOSPC) n b)
    (hle : buf'.length ≤ buf.length) : ∃ b', optsw842Decompress e' ain' aout' inp buf' = .ret (some .ENOSPC) 0 b' := by
  have h1 := overflows_mono ((C73_opt_nospace_exact e ain aout hal inp buf).mp ⟨n, b, h⟩) hle
  obtain ⟨d, b', h2⟩ | ⟨b', h2, -⟩ | ⟨b', h2⟩ := C73_opt_verdict e' ain' aout' hal' inp buf'
  · exact absurd h1 h2.2.2.2.2
  · exact ⟨b', h2⟩
  · exact absurd h1 h2.2.2

/-- C73: no false alarm.  An input that is the beginning of some stream for `x` (all of it, or a part) is not answered with `-ENOSPC` if the buffer
has room for `x`. -/
theorem C73_opt_room (e : Endian) (ain aout : Nat) (hal : ain % 8 = 0 ∧ aout % 8 = 0) (c x buf : List Byte) (hc : Decodes c x) (k : Nat)
    (hcap : x.length ≤ buf.length) (n : Nat) (b : List Byte) : optsw842Decompress e ain aout (c.take k) buf ≠ .ret (some .ENOSPC) n b := by
  intro h
  have h1 := (C73_opt_nospace_exact e ain aout hal _ buf).mp ⟨n, b, h⟩
  obtain ⟨ops, R, hx, hb⟩ := hc
  obtain ⟨S, hS⟩ := words_prefix (c.take k)
  refine not_overflows (R := R) (S := S ++ bytesBits (c.drop k)) hx ?_ hcap h1
  rw [← hb]
  have : bytesBits c = bytesBits (c.take k) ++ bytesBits (c.drop k) := by rw [← bytesBits_append, List.take_append_drop]
  rw [this, hS, List.append_assoc]
  rfl

/-- C92: the optimised decompressor answers a stream of the compressors that is too short with `-EINVAL`, and with no other code, if the buffer is large
enough for the data. -/
theorem C92_opt_truncated_code (e e' : Endian) (ain aout ain' aout' : Nat) (hal : ain' % 8 = 0 ∧ aout' % 8 = 0) (j : OptJunk) (jsw : CompJunk)
    (x buf buf' : List Byte) (n : Nat) (b : List Byte)
    (hc : optsw842Compress e ain aout j jsw x buf = .ret none n b ∨ sw842Compress e aout jsw x buf = .ret none n b) (k : Nat) (hk : k < n)
    (hcap : x.length ≤ buf'.length) : ∃ b', optsw842Decompress e' ain' aout' ((b.take n).take k) buf' = .ret (some .EINVAL) 0 b' := by
  have hd : Decodes (b.take n) x := by
    rcases hc with hc | hc
    · obtain ⟨h8, -, -, -, -, -, h4⟩ := optsw842Compress_ok hc
      unfold optBits at h4
      split at h4
      · exact ⟨refOps x, _, refOps_expands x, h4⟩
      · exact ⟨orefOps x, _, (orefOps_expands h8).1, h4⟩
    · obtain ⟨-, -, -, -, h4⟩ := sw842Compress_ok hc
      exact ⟨refOps x, _, refOps_expands x, h4⟩
  obtain ⟨er, n', b', h1, h2⟩ := C92_opt_truncated e e' ain aout ain' aout' hal j jsw x buf buf' n b hc k hk
  have h3 := C73_opt_room e' ain' aout' hal _ x buf' hd k hcap n' b'
  obtain ⟨d, b1, h4⟩ | ⟨b1, h4, -⟩ | ⟨b1, h4, -⟩ := C73_opt_verdict e' ain' aout' hal ((b.take n).take k) buf'
  · rw [h1] at h4; cases h4.1
  · rw [h1] at h4; cases h4; exact absurd h1 h3
  · exact ⟨b1, h4⟩

/-- An input that is no stream and is answered with `-ENOSPC`: a repetition 8 bytes before the end of the buffer, and then an op that does not exist.  With
more room the second op is reached. -/
example : view (optsw842Decompress .little 0 0 [0xe6, 0xc3, 0xff, 0xff, 0xff, 0xff, 0xff, 0xff] (List.replicate 39 0xaa)) = some (some .ENOSPC, 0, []) ∧
    view (optsw842Decompress .little 0 0 [0xe6, 0xc3, 0xff, 0xff, 0xff, 0xff, 0xff, 0xff] (List.replicate 40 0xaa)) = some (some .EINVAL, 0, []) := by
  decide +kernel

/-- The same seen from the specification: zeros, then 4 repetitions (`r = 3`) that need 40 bytes -/
example : Overflows [0xe6, 0xc3, 0xff, 0xff, 0xff, 0xff, 0xff, 0xff] 39 :=
  ⟨[.zeros], List.replicate 8 0, List.replicate 48 true, ⟨by simp [Op.Valid], .cons .zeros .nil⟩, by simp [Op.isShort], by decide,
    .inr ⟨3, by decide, by decide, by decide, by decide⟩⟩

/-- A stream of the compressor without its last word -/
example : ∃ n b, optsw842Compress .little 0 0 ojunk0 junk0 exIn8 (List.replicate 100 0) = .ret none n b ∧ 16 < n ∧
    view (optsw842Decompress .little 0 0 ((b.take n).take 16) (List.replicate 32 0xaa)) = some (some .EINVAL, 0, []) ∧
    view (optsw842Decompress .little 0 0 ((b.take n).take 16) (List.replicate 8 0xaa)) = some (some .ENOSPC, 0, []) := by
  have h : view (optsw842Compress .little 0 0 ojunk0 junk0 exIn8 (List.replicate 100 0)) = some (none, 24, exOut8) := by decide +kernel
  unfold view at h
  split at h
  · rename_i rc n b hx
    simp only [Option.some.injEq, Prod.mk.injEq] at h
    obtain ⟨rfl, rfl, h3⟩ := h
    refine ⟨24, b, hx, by decide, ?_⟩
    rw [h3]
    decide +kernel
  · cases h

end Lib842.Props
