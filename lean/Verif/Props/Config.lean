import Verif.Proofs.ConfigCrc
import Verif.Props.Opt
/-!
# C74, C75: the optimised codec without error handling, and without CRC

C74 is about builds without `ENABLE_ERROR_HANDLING`, C75 about builds with `DISABLE_CRC`.
`OptCfg` has the two macros; `⟨true, true⟩` is the configuration of the repository.
-/

namespace Lib842.Props
open Lib842 Spec

/-! ## C74: no error handling -/

/-- The parametrised model with the macros of the repository is the model of all other theorems. -/
theorem C74_default (e : Endian) (ain aout : Nat) (j : OptJunk) (jsw : CompJunk) (inp buf : List Byte) :
    optDecompressCfg ⟨true, true⟩ e ain aout inp buf = optsw842Decompress e ain aout inp buf ∧
    optCompressCfg ⟨true, true⟩ e ain aout j jsw inp buf = optsw842Compress e ain aout j jsw inp buf := by
  constructor
  · unfold optDecompressCfg optsw842Decompress optsw842DecompressF
    rw [Config.optBodyC_std]; rfl
  · unfold optCompressCfg optsw842Compress optsw842CompressF
    rw [Config.ocompBodyC_std _ rfl]; rfl

/-- C74: every decompression that succeeds with error handling gives the same result and the
same buffer without it (and whether or not the CRC is checked). -/
theorem C74_same (cfg : OptCfg) (e : Endian) (ain aout : Nat) (inp buf : List Byte) (n : Nat) (b : List Byte)
    (h : optsw842Decompress e ain aout inp buf = .ret none n b) :
    optDecompressCfg cfg e ain aout inp buf = .ret none n b := by
  unfold optsw842Decompress optsw842DecompressF at h
  unfold optDecompressCfg
  split
  · rename_i hal
    rw [if_pos hal] at h
    exact h
  · rename_i hal
    rw [if_neg hal] at h
    cases hx : optBody e aout (8 * inp.length + 1) (optInit inp buf) with
    | ok m p =>
      rw [hx] at h
      cases h
      obtain ⟨q, hq, hb⟩ := Config.optBody_low cfg e aout _ hx
      rw [hq]
      show Call.ret none _ q.buf = _
      rw [hb]
    | err er p => rw [hx] at h; cases h
    | ub => rw [hx] at h; cases h
    | timeout => rw [hx] at h; cases h

/-- C74: whatever the default compressor produces is restored. -/
theorem C74_round_trip (cfg : OptCfg) (e e' : Endian) (ain aout ain' aout' : Nat) (j : OptJunk) (jsw : CompJunk)
    (x buf buf' : List Byte) (n : Nat) (b : List Byte)
    (hc : optsw842Compress e ain aout j jsw x buf = .ret none n b) (hcap : x.length ≤ buf'.length)
    (hlim : (ain' % 8 = 0 ∧ aout' % 8 = 0) ∨ x.length ≤ 0xffffffff) :
    ∃ b', optDecompressCfg cfg e' ain' aout' (b.take n) buf' = .ret none x.length b' ∧
      b'.take x.length = x ∧ b'.length = buf'.length := by
  obtain ⟨b', h1, h2, h3⟩ := C02_opt_round_trip_partial e e' ain aout ain' aout' j jsw x buf buf' n b hc hcap hlim
  exact ⟨b', C74_same cfg _ _ _ _ _ _ _ h1, h2, h3⟩

/-- C74: without error handling the call still ends on every input (unless it does something
undefined), and the only code it returns is `-EINVAL`. -/
theorem C74_ends (c : Bool) (e : Endian) (ain aout : Nat) (hal : ain % 8 = 0 ∧ aout % 8 = 0) (inp buf : List Byte) :
    optDecompressCfg ⟨false, c⟩ e ain aout inp buf = .ub ∨
    (∃ n b, optDecompressCfg ⟨false, c⟩ e ain aout inp buf = .ret none n b ∧ b.length = buf.length) ∨
    (∃ b, optDecompressCfg ⟨false, c⟩ e ain aout inp buf = .ret (some .EINVAL) 0 b ∧ b.length = buf.length) := by
  unfold optDecompressCfg
  rw [if_neg (by omega)]
  have h := Config.optBodyC_prog e (cfg := ⟨false, c⟩) rfl aout (8 * inp.length + 1) (optInit inp buf)
    (by show 8 * inp.length - 64 * 0 + 0 < 5 * (8 * inp.length + 1); omega)
  cases hx : optBodyC ⟨false, c⟩ e aout (8 * inp.length + 1) (optInit inp buf) with
  | ok n p => rw [hx] at h; exact .inr (.inl ⟨n, p.buf, rfl, h⟩)
  | err er p => rw [hx] at h; exact .inr (.inr ⟨p.buf, by rw [h.1], h.2⟩)
  | ub => exact .inl rfl
  | timeout => rw [hx] at h; exact h.elim

/-- The example of `ex_opt_decompress` without error handling, and one that is rejected
nevertheless (a bad CRC). -/
example : optDecompressCfg ⟨false, true⟩ .little 0 0 exOut8 (List.replicate 33 0xaa) = .ret none 32 (exIn8 ++ [0xaa]) :=
  C74_same _ _ _ _ _ _ _ _ ex_opt_decompress
example : optDecompressCfg ⟨false, true⟩ .little 0 0 (exOut8.set 17 0) (List.replicate 33 0xaa) =
    .ret (some .EINVAL) 0 (exIn8 ++ [0xaa]) := by decide +kernel

/-- C74: the checks are needed for everything else.  With one byte less than needed, and with
a truncated stream, the default decoder returns an error; without error handling the
behaviour is undefined. -/
theorem C74_unchecked_ub :
    (∃ b, optsw842Decompress .little 0 0 exOut8 (List.replicate 31 0xaa) = .ret (some .ENOSPC) 0 b) ∧
    optDecompressCfg ⟨false, true⟩ .little 0 0 exOut8 (List.replicate 31 0xaa) = .ub ∧
    (∃ b, optsw842Decompress .little 0 0 (exOut8.take 16) (List.replicate 33 0xaa) = .ret (some .EINVAL) 0 b) ∧
    optDecompressCfg ⟨false, true⟩ .little 0 0 (exOut8.take 16) (List.replicate 33 0xaa) = .ub := by
  refine ⟨⟨exIn8.take 24 ++ List.replicate 7 0xaa, ?_⟩, ?_, ⟨exIn8 ++ [0xaa], ?_⟩, ?_⟩ <;> decide +kernel

/-- One reference to bytes that have not been written yet, the end marker, CRC 0. -/
def unwrittenRef : List Byte := [0xc8, 0x0f, 0x80, 0, 0, 0, 0, 0]

/-- C74: an invalid stream may even be accepted without error handling, with a result that
depends on what is in the output buffer before the call. -/
theorem C74_unchecked_depends_on_buffer :
    (∃ b, optsw842Decompress .little 0 0 unwrittenRef (List.replicate 16 0) = .ret (some .EINVAL) 0 b) ∧
    (∀ d, ¬ HwDecodes unwrittenRef d) ∧
    optDecompressCfg ⟨false, true⟩ .little 0 0 unwrittenRef (List.replicate 16 0) =
      .ret none 8 (List.replicate 16 0) ∧
    optDecompressCfg ⟨false, true⟩ .little 0 0 unwrittenRef (List.replicate 16 1) =
      .ret (some .EINVAL) 0 (List.replicate 16 1) := by
  have h1 : optsw842Decompress .little 0 0 unwrittenRef (List.replicate 16 0) =
      .ret (some .EINVAL) 0 (List.replicate 16 0) := by decide +kernel
  refine ⟨⟨_, h1⟩, ?_, ?_, ?_⟩
  · intro d hd
    obtain ⟨b, -, -, hb⟩ := optDecompress_decodes .little (ain := 0) (aout := 0) ⟨rfl, rfl⟩ unwrittenRef
      (List.replicate 16 0) (data := d) (by rw [words_of_mod (by decide)]; exact hd)
    rw [h1] at hb
    split at hb <;> cases hb
  · decide +kernel
  · decide +kernel

/-! ## C75: no CRC -/

/-- `input` is a stream without CRC for `data`: op sequence, end marker, arbitrary bits. -/
def PlainDecodes (input data : List Byte) : Prop :=
  ∃ ops rest, Expands ops data ∧ (∀ op ∈ ops, op.isShort = false) ∧
    bytesBits input = ops.flatMap Op.bits ++ (bitsOf 5 0x1e ++ rest)

/-- A stream with CRC is also one without. -/
theorem HwDecodes.plain {inp d : List Byte} (h : HwDecodes inp d) : PlainDecodes inp d := by
  obtain ⟨ops, R, h1, h2, h3⟩ := h
  refine ⟨ops, bitsOf 32 (crc d).toNat ++ R, h1, h2, ?_⟩
  rw [h3, trailer]
  simp only [List.append_assoc]

theorem optDecompressNC_of (cfg : OptCfg) (hc : cfg.crc = false) (e : Endian) {ain aout : Nat}
    (hal : ain % 8 = 0 ∧ aout % 8 = 0) (inp buf : List Byte) (h8 : inp.length % 8 = 0) {d : List Byte}
    (h : PlainDecodes inp d) (hcap : d.length ≤ buf.length) :
    ∃ b, optDecompressCfg cfg e ain aout inp buf = .ret none d.length b ∧ b.take d.length = d ∧
      b.length = buf.length := by
  obtain ⟨ops, R, h1, h2, h3⟩ := h
  rw [← words_of_mod h8] at h3
  have hr := Config.optBodyNC_of cfg hc e aout (8 * inp.length + 1) inp buf (by omega) h1 h2 h3
  rw [if_pos hcap] at hr
  obtain ⟨p, hp, hl, ht⟩ := hr
  refine ⟨p.buf, ?_, ht, hl⟩
  unfold optDecompressCfg
  rw [if_neg (by omega), hp]

/-- C75: with error handling and without CRC, the decoder on aligned buffers accepts exactly
the op sequences with an end marker whose data fit, and returns their data; it never does
anything undefined and always ends. -/
theorem C75_decodes (e : Endian) (ain aout : Nat) (hal : ain % 8 = 0 ∧ aout % 8 = 0) (inp buf : List Byte)
    (h8 : inp.length % 8 = 0) :
    (∀ d, (∃ b, optDecompressCfg ⟨true, false⟩ e ain aout inp buf = .ret none d.length b ∧ b.take d.length = d) ↔
      PlainDecodes inp d ∧ d.length ≤ buf.length) ∧
    ((∃ d b, optDecompressCfg ⟨true, false⟩ e ain aout inp buf = .ret none d.length b ∧ b.take d.length = d ∧
        b.length = buf.length) ∨
      ∃ er b, optDecompressCfg ⟨true, false⟩ e ain aout inp buf = .ret (some er) 0 b ∧ b.length = buf.length) := by
  have hcases := Config.optBodyNC_ok e aout (8 * inp.length + 1) inp buf (by omega)
  rw [words_of_mod h8] at hcases
  have heq : ∀ p n, optBodyC ⟨true, false⟩ e aout (8 * inp.length + 1) (optInit inp buf) = .ok n p →
      optDecompressCfg ⟨true, false⟩ e ain aout inp buf = .ret none n p.buf := by
    intro p n h
    unfold optDecompressCfg
    rw [if_neg (by omega), h]
  have heq' : ∀ p er, optBodyC ⟨true, false⟩ e aout (8 * inp.length + 1) (optInit inp buf) = .err er p →
      optDecompressCfg ⟨true, false⟩ e ain aout inp buf = .ret (some er) 0 p.buf := by
    intro p er h
    unfold optDecompressCfg
    rw [if_neg (by omega), h]
  refine ⟨fun d => ⟨?_, ?_⟩, ?_⟩
  · rintro ⟨b, hb, ht⟩
    rcases hcases with ⟨p, ops, R, h1, h2, h3, h4, h5, h6⟩ | ⟨er, p, h1, -⟩
    · rw [heq p _ h1] at hb
      injection hb with _ hn hb
      subst hb
      rw [hn, ht] at h4
      exact ⟨⟨ops, R, h4, h5, h6⟩, by omega⟩
    · rw [heq' p _ h1] at hb; cases hb
  · rintro ⟨h, hcap⟩
    obtain ⟨b, h1, h2, -⟩ := optDecompressNC_of ⟨true, false⟩ rfl e hal inp buf h8 h hcap
    exact ⟨b, h1, h2⟩
  · rcases hcases with ⟨p, ops, R, h1, h2, h3, h4, h5, h6⟩ | ⟨er, p, h1, h2⟩
    · have hlen : (p.buf.take p.out).length = p.out := by rw [List.length_take]; omega
      exact .inl ⟨p.buf.take p.out, p.buf, by rw [hlen]; exact heq p _ h1, by rw [hlen], h2⟩
    · exact .inr ⟨er, p.buf, heq' p _ h1, h2⟩

/-- C75: round trip without CRC, with or without error handling, if the decompressor gets
aligned buffers, or if neither call gets them (and the size is within the limit of the serial
version). -/
theorem C75_round_trip_partial (cfg cfg' : OptCfg) (hcrc : cfg.crc = false ∧ cfg'.crc = false)
    (e e' : Endian) (ain aout ain' aout' : Nat) (j : OptJunk) (jsw : CompJunk)
    (x buf buf' : List Byte) (n : Nat) (b : List Byte)
    (hc : optCompressCfg cfg e ain aout j jsw x buf = .ret none n b) (hcap : x.length ≤ buf'.length)
    (hal : (ain' % 8 = 0 ∧ aout' % 8 = 0) ∨ ((ain % 8 ≠ 0 ∨ aout % 8 ≠ 0) ∧ x.length ≤ 0xffffffff)) :
    ∃ b', optDecompressCfg cfg' e' ain' aout' (b.take n) buf' = .ret none x.length b' ∧
      b'.take x.length = x ∧ b'.length = buf'.length := by
  by_cases hsw : ain % 8 ≠ 0 ∨ aout % 8 ≠ 0
  · have hc' : optsw842Compress e ain aout j jsw x buf = .ret none n b := by
      rw [← hc]
      unfold optsw842Compress optsw842CompressF optCompressCfg
      split
      · rfl
      · simp only [if_pos hsw]
    refine C74_round_trip cfg' e e' ain aout ain' aout' j jsw x buf buf' n b hc' hcap ?_
    rcases hal with h | h
    · exact .inl h
    · exact .inr h.2
  · have hal' : ain' % 8 = 0 ∧ aout' % 8 = 0 := hal.resolve_right fun h => hsw h.1
    unfold optCompressCfg at hc
    by_cases h8 : x.length % 8 = 0
    swap
    · rw [if_pos h8] at hc; cases hc
    rw [if_neg (by omega), if_neg hsw] at hc
    by_cases hne : x = []
    · subst hne
      exfalso
      have : ocompBodyC (.std e) cfg e ain (([] : List Byte).length / 8 + 1) [] (ocompInit j [] buf) = .ub := by
        unfold ocompBodyC
        rw [M.get_bind_apply]
        cases e <;> rfl
      rw [this] at hc
      cases hc
    · obtain ⟨b1, hl, hr⟩ := Config.ocompBodyNC_res hcrc.1 e (OConf.std_ok e) 0 ain j buf h8 hne
      rw [Nat.zero_add] at hr
      change ocompRet _ = _ at hc
      by_cases hfit : paddedSize (Config.plainBits x).length ≤ buf.length
      · rw [if_pos hfit] at hr
        rw [hr.1] at hc
        injection hc with _ hn hb
        subst hb
        subst hn
        obtain ⟨h1, h2⟩ := orefOps_expands h8
        refine optDecompressNC_of cfg' hcrc.2 e' hal' _ buf' ?_ ⟨orefOps x, List.replicate (8 * paddedSize (Config.plainBits x).length -
          (Config.plainBits x).length) false, h1, h2, ?_⟩ hcap
        · rw [List.length_take, Nat.min_eq_left (by omega)]
          unfold paddedSize; omega
        · rw [hr.2.1]
          unfold Config.plainBits
          rw [List.append_assoc]
      · rw [if_neg hfit] at hr
        rw [hr] at hc
        cases hc

/-- The example without CRC: 16 bytes instead of 24. -/
example : view (optCompressCfg ⟨true, false⟩ .little 0 0 ojunk0 junk0 exIn8 (List.replicate 40 0xaa)) =
    some (none, 16, exOut8.take 16) := by decide +kernel
example : optDecompressCfg ⟨false, false⟩ .little 0 0 (exOut8.take 16) (List.replicate 33 0xaa) =
    .ret none 32 (exIn8 ++ [0xaa]) := by decide +kernel

/-- C75 without the condition on the alignment is false: the serial version, which is used
for unaligned buffers, always expects a CRC. -/
theorem C75_round_trip_false :
    ¬ ∀ (cfg cfg' : OptCfg), cfg.crc = false ∧ cfg'.crc = false → ∀ (e e' : Endian) (ain aout ain' aout' : Nat)
      (j : OptJunk) (jsw : CompJunk) (x buf buf' : List Byte) (n : Nat) (b : List Byte),
      optCompressCfg cfg e ain aout j jsw x buf = .ret none n b → x.length ≤ buf'.length →
      ∃ b', optDecompressCfg cfg' e' ain' aout' (b.take n) buf' = .ret none x.length b' := by
  intro h
  have hc : view (optCompressCfg ⟨true, false⟩ .little 0 0 ojunk0 junk0 exIn8 (List.replicate 40 0xaa)) =
    some (none, 16, exOut8.take 16) := by decide +kernel
  have hd : optDecompressCfg ⟨true, false⟩ .little 0 1 (exOut8.take 16) (List.replicate 32 0xaa) =
    .ret (some .EOVERFLOW) 0 exIn8 := by decide +kernel
  cases hx : optCompressCfg ⟨true, false⟩ .little 0 0 ojunk0 junk0 exIn8 (List.replicate 40 0xaa) with
  | ret rc n b =>
    rw [hx] at hc
    simp [view] at hc
    obtain ⟨rfl, rfl, hb⟩ := hc
    obtain ⟨b', h'⟩ := h ⟨true, false⟩ ⟨true, false⟩ ⟨rfl, rfl⟩ .little .little 0 0 0 1 ojunk0 junk0 exIn8
      (List.replicate 40 0xaa) (List.replicate 32 0xaa) 16 b hx (by decide)
    rw [hb, hd] at h'
    cases h'
  | ub => rw [hx] at hc; cases hc
  | timeout => rw [hx] at hc; cases hc

/-- C75: a stream written without CRC is not a stream of the format, and the default build
rejects it; the reverse direction works (`C74_same`). -/
theorem C75_not_interchangeable :
    (∃ b, optCompressCfg ⟨true, false⟩ .little 0 0 ojunk0 junk0 exIn8 (List.replicate 16 0xaa) = .ret none 16 b ∧
      b = exOut8.take 16) ∧
    (∃ b, optsw842Decompress .little 0 0 (exOut8.take 16) (List.replicate 32 0xaa) = .ret (some .EINVAL) 0 b) := by
  refine ⟨⟨exOut8.take 16, ?_, rfl⟩, ⟨exIn8, ?_⟩⟩ <;> decide +kernel

/-- C75: without CRC, damage is not noticed: a changed literal is returned as data. -/
theorem C75_damage_unnoticed :
    optDecompressCfg ⟨true, false⟩ .little 0 0 ((exOut8.take 16).set 1 0) (List.replicate 32 0xaa) =
      .ret none 32 ([64, 2, 67, 68, 69, 70, 71, 72, 64, 2, 67, 68, 69, 70, 71, 72, 67, 68, 1, 2, 69, 70, 71, 72] ++
        List.replicate 8 0) ∧
    optDecompressCfg ⟨true, true⟩ .little 0 0 (exOut8.set 1 0) (List.replicate 32 0xaa) =
      .ret (some .EINVAL) 0 ([64, 2, 67, 68, 69, 70, 71, 72, 64, 2, 67, 68, 69, 70, 71, 72, 67, 68, 1, 2, 69, 70, 71, 72] ++
        List.replicate 8 0) := by
  constructor <;> decide +kernel

end Lib842.Props
