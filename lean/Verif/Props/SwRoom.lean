import Verif.Proofs.SwRoom
import Verif.Props.Final
/-!
# Exactly when `sw842_decompress` answers `-ENOSPC`, and its verdict on every input (C73)

`SwOverflows` is in `SpecRoom.lean`: the input comes to valid ops, and then to an op for which there is no room.
-/

namespace Lib842.Props
open Spec

/-- C73: `sw842_decompress` answers `-ENOSPC` exactly if the input asks for more room, or is a stream for more than `UINT_MAX` bytes. -/
theorem C73_sw_nospace_exact (e : Endian) (addr : Nat) (inp buf : List Byte) :
    (∃ n b, sw842Decompress e addr inp buf = .ret (some .ENOSPC) n b) ↔
      SwOverflows inp buf.length ∨ ∃ d, Decodes inp d ∧ d.length ≤ buf.length ∧ 0xffffffff < d.length :=
  sw_full_iff e addr inp buf

/-- C73, the verdict of `sw842_decompress` on every input and buffer: exactly one of the five outcomes, each with the condition for it.  The input is
a stream whose data fits; it asks for more room; it asks for a repetition of less than 8 bytes; it is too short, so that the answer depends on what
follows; or it is neither, whatever follows. -/
theorem C73_sw_verdict (e : Endian) (addr : Nat) (inp buf : List Byte) :
    let full := SwOverflows inp buf.length ∨ ∃ d, Decodes inp d ∧ d.length ≤ buf.length ∧ 0xffffffff < d.length
    let bad := ∃ (ops : List Op) (out : List Byte) (n : Nat) (R : List Bool), Expands ops out ∧
      bytesBits inp = ops.flatMap Op.bits ++ ((Op.rep n).bits ++ R) ∧ n < 64 ∧ 0 < out.length ∧ out.length < 8 ∧
      out.length + 8 * (n + 1) ≤ buf.length
    let good := ∃ d, Decodes inp d ∧ d.length ≤ buf.length ∧ d.length ≤ 0xffffffff
    let final := ∀ more, sw842Decompress e addr (inp ++ more) buf = sw842Decompress e addr inp buf
    (∃ d b, sw842Decompress e addr inp buf = .ret none d.length b ∧ b.take d.length = d ∧ Decodes inp d ∧ d.length ≤ buf.length ∧
      ¬ full ∧ ¬ bad ∧ final) ∨
    (∃ b, sw842Decompress e addr inp buf = .ret (some .ENOSPC) 0 b ∧ full ∧ ¬ bad ∧ ¬ good ∧ final) ∨
    (sw842Decompress e addr inp buf = .ub ∧ bad ∧ ¬ full ∧ ¬ good ∧ final) ∨
    (∃ b, sw842Decompress e addr inp buf = .ret (some .EOVERFLOW) 0 b ∧ ¬ final ∧ ¬ full ∧ ¬ bad ∧ ¬ good) ∨
    (∃ b, sw842Decompress e addr inp buf = .ret (some .EINVAL) 0 b ∧ final ∧ ¬ full ∧ ¬ bad ∧ ¬ good) := by
  intro full bad good final
  have hr := sw842Decompress_res e addr inp buf
  have hfull : _ ↔ full := C73_sw_nospace_exact e addr inp buf
  have hbad : _ ↔ bad := C05_sw_decompress_memory_safe_partial e addr inp buf
  have hfin : final ↔ _ := C97_sw_final e addr inp buf
  have hgood : good → ∃ n b, sw842Decompress e addr inp buf = .ret none n b := by
    rintro ⟨d, hd⟩
    obtain ⟨b, h, -⟩ := (C13_sw_accepts_exactly_format e addr inp buf d).2 hd
    exact ⟨_, b, h⟩
  clear_value full bad good final
  generalize hx : sw842Decompress e addr inp buf = x at *
  have nfull : (∀ n b, x ≠ .ret (some .ENOSPC) n b) → ¬ full := fun h hf => by
    obtain ⟨n, b, hc⟩ := hfull.2 hf
    exact h n b hc
  have nbad : x ≠ .ub → ¬ bad := fun h hb => h (hbad.2 hb)
  have ngood : (∀ n b, x ≠ .ret none n b) → ¬ good := fun h hg => by
    obtain ⟨n, b, hc⟩ := hgood hg
    exact h n b hc
  cases hr with
  | @ok d b h1 h2 h3 h4 h5 =>
    exact .inl ⟨d, b, rfl, h5, h1, h2, nfull (by simp), nbad (by simp), hfin.2 (by simp)⟩
  | @err er b _ =>
    rcases C73_sw e addr inp buf er 0 b hx with ⟨rfl | rfl, -⟩ | ⟨rfl, -⟩
    · exact .inr (.inr (.inr (.inr ⟨b, rfl, hfin.2 (by simp), nfull (by simp), nbad (by simp), ngood (by simp)⟩)))
    · exact .inr (.inr (.inr (.inl ⟨b, rfl, fun h => hfin.1 h 0 b rfl, nfull (by simp), nbad (by simp), ngood (by simp)⟩)))
    · exact .inr (.inl ⟨b, rfl, hfull.1 ⟨0, b, rfl⟩, nbad (by simp), ngood (by simp), hfin.2 (by simp)⟩)
  | ub hexp hin hub =>
    exact .inr (.inr (.inl ⟨rfl, hbad.1 rfl, nfull (by simp), ngood (by simp), hfin.2 (by simp)⟩))

/-- C73: no false alarm.  An input that is the beginning of some stream for `x` (all of it, or a part) is not answered with `-ENOSPC` if the buffer
has room for `x`. -/
theorem C73_sw_room (e : Endian) (addr : Nat) (c x buf : List Byte) (hc : Decodes c x) (k : Nat) (hcap : x.length ≤ buf.length)
    (hmax : x.length ≤ 0xffffffff) (n : Nat) (b : List Byte) : sw842Decompress e addr (c.take k) buf ≠ .ret (some .ENOSPC) n b := by
  intro h
  obtain ⟨b', h1, -⟩ := (C13_sw_accepts_exactly_format e addr c buf x).2 ⟨hc, hcap, hmax⟩
  have h2 := (C97_sw_final e addr (c.take k) buf).2 (by rw [h]; simp) (c.drop k)
  rw [List.take_append_drop, h1, h] at h2
  cases h2

/-- C73: what is answered with `-ENOSPC` is answered with it for every smaller buffer: doubling the size loses nothing. -/
theorem C73_sw_nospace_mono (e e' : Endian) (addr addr' : Nat) (inp buf buf' : List Byte) (n : Nat) (b : List Byte)
    (h : sw842Decompress e addr inp buf = .ret (some .ENOSPC) n b) (hle : buf'.length ≤ buf.length) :
    ∃ b', sw842Decompress e' addr' inp buf' = .ret (some .ENOSPC) 0 b' := by
  rcases (C73_sw_nospace_exact e addr inp buf).1 ⟨n, b, h⟩ with ⟨ops, d, R, hx, hfit, hb, hf⟩ | ⟨d, hd, hfit, hgt⟩
  · by_cases hc : d.length ≤ buf'.length
    · obtain ⟨n', b', h'⟩ := (C73_sw_nospace_exact e' addr' inp buf').2 (.inl ⟨ops, d, R, hx, hc, hb, opFull_mono hle hc hf⟩)
      have hr := sw842Decompress_res e' addr' inp buf'
      rw [h'] at hr ⊢
      cases hr
      exact ⟨b', rfl⟩
    · exact sw_ops_full e' addr' inp buf' hx hb (by omega)
  · obtain ⟨b', -, -, h'⟩ := sw842Decompress_decodes e' addr' inp buf' hd
    refine ⟨b', ?_⟩
    rw [h', if_pos hgt, ite_self]

/-- The five outcomes: `exOut` with room and without; the same stream cut short; zeros followed by ones; and a short op of one byte followed by a
repetition (the witness of C05). -/
example : view (sw842Decompress .little 0 exOut (List.replicate 19 0)) = some (none, 19, exIn) ∧
    view (sw842Decompress .little 0 exOut (List.replicate 18 0)) = some (some .ENOSPC, 0, []) ∧
    view (sw842Decompress .little 0 (exOut.take 16) (List.replicate 19 0)) = some (some .EOVERFLOW, 0, []) ∧
    view (sw842Decompress .little 0 [0xe7, 0xff] (List.replicate 19 0)) = some (some .EINVAL, 0, []) := by
  refine ⟨?_, ?_, ?_, ?_⟩ <;> decide +kernel

/-- A template with room for its first action only: 4 bytes of data, then data of 2 bytes, and the bits for this need not be there. -/
example : SwOverflows [0x08, 0, 0, 0, 0] 5 :=
  ⟨[], [], _, ⟨by simp, .nil⟩, by simp, rfl, .template (code := 1) (args := [.data [0, 0, 0, 0]]) (act := .D 2) (acts := [.I 2])
    (rest := [false, false, false]) rfl (by simp [Arg.Valid]) (.cons .data .nil) (by simp) (.data (by simp))⟩

/-- Zeros, and then a short op of 3 bytes that needs 11 -/
example : SwOverflows [0xe7, 0x58] 10 :=
  ⟨[.zeros], List.replicate 8 0, _, ⟨by simp [Op.Valid], .cons .zeros .nil⟩, by simp, by decide,
    .short (m := 3) (rest := [false, false, false]) (by decide) (by decide) (by simp)⟩

end Lib842.Props
