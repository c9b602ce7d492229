import Verif.Proofs.BranchFreeCfg
import Verif.Props.BranchFree
import Verif.Props.Config
/-!
# C115: all combinations of the switches of the optimised codec

C63 is about `BRANCH_FREE` with the two other switches as they are in the repository, C74 and
C75 are about the two others without `BRANCH_FREE`.  Here they are combined: there are eight
builds of the library (and the meaning of a shift by 64, `OverShift`, where it matters).
-/

namespace Lib842.Props
open Lib842 Spec

/-- The parametrised model with the macros of the repository is the model of C63. -/
theorem C115_default (S : OverShift) (e : Endian) (ain aout : Nat) (j : OptJunk) (jsw : CompJunk) (inp buf : List Byte) :
    optDecompressBFC S ⟨true, true⟩ e ain aout inp buf = optsw842DecompressBF S e ain aout inp buf ∧
    optCompressBFC S ⟨true, true⟩ e ain aout j jsw inp buf = optsw842CompressBF S e ain aout j jsw inp buf := by
  constructor
  · unfold optDecompressBFC optsw842DecompressBF
    rw [Config.bfBodyC_std]; rfl
  · unfold optCompressBFC optsw842CompressBF
    rw [Config.ocompBodyC_std _ rfl]; rfl

/-- C115: with error handling, with or without CRC, the branch-free decompressor does the
same as the other one on every input. -/
theorem C115_decompress_same_partial (S : OverShift) (hS : ∀ x, S.shr x 64 ≠ none) (c : Bool) (e : Endian)
    (ain aout : Nat) (inp buf : List Byte) :
    SameResult (optDecompressBFC S ⟨true, c⟩ e ain aout inp buf) (optDecompressCfg ⟨true, c⟩ e ain aout inp buf) := by
  have hS' : S.Right := fun x => Option.ne_none_iff_exists'.1 (hS x)
  unfold optDecompressBFC optDecompressCfg
  split
  · exact .inl rfl
  · rcases Config.bfBodyC_same hS' e c aout (8 * inp.length + 1) (optInit_inv inp buf) with h | ⟨er, p, q, h1, h2⟩
    · rw [h]; exact .inl rfl
    · rw [h1, h2]; exact .inr ⟨er, 0, p.buf, q.buf, rfl, rfl⟩

/-- C115: whatever the default decompressor accepts, with or without CRC, the branch-free one
restores without error handling, too, byte for byte; a build that does not check the CRC also
accepts what a build that checks it accepts. -/
theorem C115_decompress_unchecked_partial (S : OverShift) (hS : ∀ x, S.shr x 64 ≠ none) (c c' : Bool)
    (hcc : c = true ∨ c' = false) (e : Endian) (ain aout : Nat) (inp buf : List Byte) (n : Nat) (b : List Byte)
    (h : optDecompressCfg ⟨true, c⟩ e ain aout inp buf = .ret none n b) (er : Bool) :
    optDecompressBFC S ⟨er, c'⟩ e ain aout inp buf = .ret none n b := by
  have hS' : S.Right := fun x => Option.ne_none_iff_exists'.1 (hS x)
  have hb : optDecompressBFC S ⟨true, c⟩ e ain aout inp buf = .ret none n b := by
    rcases C115_decompress_same_partial S hS c e ain aout inp buf with h1 | ⟨er, m, ba, bb, -, h1⟩
    · rw [h1, h]
    · rw [h] at h1; cases h1
  unfold optDecompressBFC at hb ⊢
  split
  · rename_i hal; rw [if_pos hal] at hb; exact hb
  · rename_i hal
    rw [if_neg hal] at hb
    cases hx : bfBodyC S ⟨true, c⟩ e aout (8 * inp.length + 1) (optInit inp buf) with
    | ok m p =>
      rw [hx] at hb
      cases hb
      obtain ⟨q, hq, hqb⟩ := Config.bfBodyC_low S e er c c' aout (8 * inp.length + 1) hcc (by
        intro q hq
        have hw := words_le inp
        have hres := (optIter_ok e).loop_res (8 * inp.length + 1) (optInit_inv inp buf)
          (by show (optInit inp buf).rest.length < _; rw [optInit_rest]; omega)
        rcases bfLoop_same hS' e (8 * inp.length + 1) (optInit_inv inp buf) with h1 | ⟨er, q1, q2, h1, -⟩
        · rw [← h1, hq] at hres
          cases hres with
          | ok hi _ _ _ _ _ => exact hi.2.1
        · rw [hq] at h1; cases h1) hx
      rw [hq]
      show Call.ret none _ q.buf = _
      rw [hqb]
    | err er p => rw [hx] at hb; cases hb
    | ub => rw [hx] at hb; cases hb
    | timeout => rw [hx] at hb; cases hb

/-- C115: the branch-free compressor does the same as the other one, with and without CRC,
whatever is in the memory that the compressor does not initialise.  (Error handling is a
switch of the decompressor only.) -/
theorem C115_compress_same_partial (S : OverShift) (hS : S.shl 0#64 64 = some 0#64) (cfg cfg' : OptCfg)
    (hcfg : cfg.crc = cfg'.crc) (e : Endian) (ain aout : Nat) (j j' : OptJunk) (jsw : CompJunk) (x buf : List Byte) :
    SameResult (optCompressBFC S cfg e ain aout j jsw x buf) (optCompressCfg cfg' e ain aout j' jsw x buf) := by
  by_cases hc : cfg.crc = true
  · have h1 : optCompressBFC S cfg e ain aout j jsw x buf = optsw842CompressBF S e ain aout j jsw x buf := by
      unfold optCompressBFC optsw842CompressBF
      rw [Config.ocompBodyC_std _ hc]; rfl
    have h2 : optCompressCfg cfg' e ain aout j' jsw x buf = optsw842Compress e ain aout j' jsw x buf := by
      unfold optCompressCfg optsw842Compress optsw842CompressF
      rw [Config.ocompBodyC_std _ (hcfg ▸ hc)]; rfl
    rw [h1, h2]
    exact C63_compress_same_partial S hS e ain aout j j' jsw x buf
  · have hc : cfg.crc = false := by simpa using hc
    have hc' : cfg'.crc = false := hcfg ▸ hc
    unfold optCompressBFC optCompressCfg
    by_cases h8 : x.length % 8 ≠ 0
    · rw [if_pos h8, if_pos h8]; exact .inl rfl
    by_cases hal : ain % 8 ≠ 0 ∨ aout % 8 ≠ 0
    · rw [if_neg h8, if_pos hal, if_neg h8, if_pos hal]; exact .inl rfl
    rw [if_neg h8, if_neg hal, if_neg h8, if_neg hal]
    by_cases hne : x = []
    · subst hne
      have : ∀ cf cfg j, ocompBodyC cf cfg e ain (([] : List Byte).length / 8 + 1) [] (ocompInit j [] buf) = .ub := by
        intro cf cfg j
        unfold ocompBodyC
        rw [M.get_bind_apply]
        cases e <;> rfl
      rw [this, this]
      exact .inl rfl
    · obtain ⟨b, hl, hr⟩ := Config.ocompBodyNC_res hc e (OConf.bf_ok (S := S) hS e) 0 ain j buf (not_not.1 h8) hne
      obtain ⟨b', hl', hr'⟩ := Config.ocompBodyNC_res hc' e (OConf.std_ok e) 0 ain j' buf (not_not.1 h8) hne
      rw [Nat.zero_add] at hr hr'
      change SameResult (ocompRet _) (ocompRet _)
      by_cases hfit : paddedSize (Config.plainBits x).length ≤ buf.length
      · rw [if_pos hfit] at hr hr'
        rw [hr.1, hr'.1]
        left
        have h1 : b.take (paddedSize (Config.plainBits x).length) = b'.take (paddedSize (Config.plainBits x).length) :=
          bytesBits_inj (by rw [hr.2.1, hr'.2.1])
        rw [← List.take_append_drop (paddedSize (Config.plainBits x).length) b, h1, hr.2.2, ← hr'.2.2,
          List.take_append_drop]
      · rw [if_neg hfit] at hr hr'
        rw [hr, hr']
        exact .inr ⟨_, _, _, _, rfl, rfl⟩

/-- C115: round trip in every combination, provided that both sides agree on the CRC: `bc` and
`bd` tell whether the compressor and the decompressor are branch-free.  Without CRC the
condition on the alignment is that of C75. -/
theorem C115_round_trip_partial (S S' : OverShift) (hS : S.shl 0#64 64 = some 0#64) (hS' : ∀ x, S'.shr x 64 ≠ none)
    (cfg cfg' : OptCfg) (hcfg : cfg.crc = cfg'.crc) (bc bd : Bool) (e e' : Endian) (ain aout ain' aout' : Nat)
    (j : OptJunk) (jsw : CompJunk) (x buf buf' : List Byte) (n : Nat) (b : List Byte)
    (hc : (if bc then optCompressBFC S cfg e ain aout j jsw x buf else optCompressCfg cfg e ain aout j jsw x buf) =
      .ret none n b)
    (hcap : x.length ≤ buf'.length)
    (hal : (ain' % 8 = 0 ∧ aout' % 8 = 0) ∨
      ((cfg.crc = true ∨ ain % 8 ≠ 0 ∨ aout % 8 ≠ 0) ∧ x.length ≤ 0xffffffff)) :
    ∃ b', (if bd then optDecompressBFC S' cfg' e' ain' aout' (b.take n) buf'
        else optDecompressCfg cfg' e' ain' aout' (b.take n) buf') = .ret none x.length b' ∧
      b'.take x.length = x ∧ b'.length = buf'.length := by
  have hstd : optCompressCfg cfg e ain aout j jsw x buf = .ret none n b := by
    cases bc with
    | false => exact hc
    | true =>
      rw [if_pos rfl] at hc
      rcases C115_compress_same_partial S hS cfg cfg rfl e ain aout j j jsw x buf with h | ⟨er, k, ba, bb, h1, -⟩
      · rw [← h, hc]
      · rw [hc] at h1; cases h1
  have hdec : ∀ cf : OptCfg, cf.crc = cfg.crc →
      ∃ b', optDecompressCfg cf e' ain' aout' (b.take n) buf' = .ret none x.length b' ∧
        b'.take x.length = x ∧ b'.length = buf'.length := by
    intro cf hcf
    by_cases hcrc : cfg.crc = true
    · have hc' : optsw842Compress e ain aout j jsw x buf = .ret none n b := by
        rw [← hstd]
        unfold optCompressCfg optsw842Compress optsw842CompressF
        rw [Config.ocompBodyC_std _ hcrc]; rfl
      refine C74_round_trip cf e e' ain aout ain' aout' j jsw x buf buf' n b hc' hcap ?_
      rcases hal with h | h
      · exact .inl h
      · exact .inr h.2
    · have h0 : cfg.crc = false := by simpa using hcrc
      refine C75_round_trip_partial cfg cf ⟨h0, hcf.trans h0⟩ e e' ain aout ain' aout' j jsw x buf buf' n b hstd hcap ?_
      rcases hal with h | h
      · exact .inl h
      · exact .inr ⟨h.1.resolve_left hcrc, h.2⟩
  cases bd with
  | false => exact hdec cfg' hcfg.symm
  | true =>
    obtain ⟨b', h1, h2, h3⟩ := hdec ⟨true, cfg.crc⟩ rfl
    refine ⟨b', ?_, h2, h3⟩
    obtain ⟨er, cr⟩ := cfg'
    rw [if_pos rfl]
    refine C115_decompress_unchecked_partial S' hS' cfg.crc cr ?_ e' ain' aout' _ buf' _ b' h1 er
    simp only at hcfg
    rw [hcfg]
    cases cr <;> simp

/-- C115: without error handling the branch-free decompressor ends on every input, unless it
does something undefined, and the only code it returns is `-EINVAL`. -/
theorem C115_ends (S : OverShift) (c : Bool) (e : Endian) (ain aout : Nat) (hal : ain % 8 = 0 ∧ aout % 8 = 0)
    (inp buf : List Byte) :
    optDecompressBFC S ⟨false, c⟩ e ain aout inp buf = .ub ∨
    (∃ n b, optDecompressBFC S ⟨false, c⟩ e ain aout inp buf = .ret none n b ∧ b.length = buf.length) ∨
    (∃ b, optDecompressBFC S ⟨false, c⟩ e ain aout inp buf = .ret (some .EINVAL) 0 b ∧ b.length = buf.length) := by
  unfold optDecompressBFC
  rw [if_neg (by omega)]
  have h := Config.bfBodyC_prog S e (cfg := ⟨false, c⟩) rfl aout (8 * inp.length + 1) (optInit inp buf)
    (by show 8 * inp.length - 64 * 0 + 0 < 5 * (8 * inp.length + 1); omega)
  cases hx : bfBodyC S ⟨false, c⟩ e aout (8 * inp.length + 1) (optInit inp buf) with
  | ok n p => rw [hx] at h; exact .inr (.inl ⟨n, p.buf, rfl, h⟩)
  | err er p => rw [hx] at h; exact .inr (.inr ⟨p.buf, by rw [h.1], h.2⟩)
  | ub => exact .inl rfl
  | timeout => rw [hx] at h; exact h.elim

/-- The example of C63 in three other builds. -/
example : optDecompressBFC .zero ⟨false, true⟩ .little 0 0 exOut8 (List.replicate 33 0xaa) =
    .ret none 32 (exIn8 ++ [0xaa]) := by decide +kernel
example : view (optCompressBFC .mod64 ⟨true, false⟩ .little 0 0 ojunk0 junk0 exIn8 (List.replicate 40 0xaa)) =
    some (none, 16, exOut8.take 16) := by decide +kernel
example : optDecompressBFC .mod64 ⟨false, false⟩ .little 0 0 (exOut8.take 16) (List.replicate 33 0xaa) =
    .ret none 32 (exIn8 ++ [0xaa]) := by decide +kernel
example : optDecompressBFC .mod64 ⟨true, true⟩ .little 0 0 (exOut8.set 17 0) (List.replicate 33 0xaa) =
    .ret (some .EINVAL) 0 (exIn8 ++ [0xaa]) := by decide +kernel

/-- Eight zero bytes, then the op 31, which does not exist, then the end marker and a CRC. -/
def op31Stream : List Byte := [0xe7, 0xc8, 0x28, 0x40, 0x1e, 0x78, 0xe4, 0x72, 0x2c, 0, 0, 0, 0, 0, 0, 0]

/-- The stream of `sw842_compress` for the three bytes 1, 2, 3: it uses the op for short data. -/
def shortStream : List Byte := [235, 1, 2, 3, 245, 99, 72, 162, 136, 0, 0, 0, 0, 0, 0, 0]

/-- C115 without error handling is false for invalid streams: an op that does not exist is
rejected by the build without `BRANCH_FREE` (842_decompress.cpp 536-538), with or without
error handling, but executed by the branch-free one, whose check at 188-193 is part of the
error handling; the CRC does not help. -/
theorem C115_invalid_op_accepted :
    (∀ d, ¬ HwDecodes op31Stream d) ∧
    (∀ cfg, ∃ b, optDecompressCfg cfg .little 0 0 op31Stream (List.replicate 16 0xaa) = .ret (some .EINVAL) 0 b) ∧
    (∀ c, ∃ b, optDecompressBFC .mod64 ⟨true, c⟩ .little 0 0 op31Stream (List.replicate 16 0xaa) =
      .ret (some .EINVAL) 0 b) ∧
    (∀ c, optDecompressBFC .mod64 ⟨false, c⟩ .little 0 0 op31Stream (List.replicate 16 0xaa) =
      .ret none 16 [0, 0, 0, 0, 0, 0, 0, 0, 0, 0, 0, 0, 65, 66, 0, 0]) := by
  have hstd : ∀ cfg, optDecompressCfg cfg .little 0 0 op31Stream (List.replicate 16 0xaa) =
      .ret (some .EINVAL) 0 (List.replicate 8 0 ++ List.replicate 8 0xaa) := by
    rintro ⟨_ | _, _ | _⟩ <;> decide +kernel
  refine ⟨?_, fun cfg => ⟨_, hstd cfg⟩, ?_, ?_⟩
  · intro d hd
    obtain ⟨b, -, -, hb⟩ := optDecompress_decodes .little (ain := 0) (aout := 0) ⟨rfl, rfl⟩ op31Stream
      (List.replicate 16 0xaa) (data := d) (by rw [words_of_mod (by decide)]; exact hd)
    rw [← (C74_default .little 0 0 ojunk0 junk0 op31Stream (List.replicate 16 0xaa)).1, hstd] at hb
    split at hb <;> cases hb
  · intro c
    refine ⟨List.replicate 8 0 ++ List.replicate 8 0xaa, ?_⟩
    revert c
    rintro (_ | _) <;> decide +kernel
  · rintro (_ | _) <;> decide +kernel

/-- C115: the op for short data, which the serial version writes for the last bytes of an
input whose size is not a multiple of 8, is another op that the optimised codec does not know.
Every build without `BRANCH_FREE` rejects it; the behaviour of the branch-free one without
error handling is undefined. -/
theorem C115_short_data_ub :
    (∃ b, sw842Compress .little 0 junk0 [1, 2, 3] (List.replicate 16 0) = .ret none 16 b ∧ b = shortStream) ∧
    (∀ cfg, ∃ b, optDecompressCfg cfg .little 0 0 shortStream (List.replicate 64 0xaa) = .ret (some .EINVAL) 0 b) ∧
    (∀ c, optDecompressBFC .mod64 ⟨false, c⟩ .little 0 0 shortStream (List.replicate 64 0xaa) = .ub) := by
  refine ⟨⟨shortStream, by decide +kernel, rfl⟩, fun cfg => ⟨List.replicate 64 0xaa, ?_⟩, ?_⟩
  · revert cfg
    rintro ⟨_ | _, _ | _⟩ <;> decide +kernel
  · rintro (_ | _) <;> decide +kernel

/-- C115 in full, refuted: without error handling the branch-free build and the other one do
not give the same result for every input. -/
theorem C115_decompress_same_false :
    ¬ ∀ (S : OverShift), (∀ x, S.shr x 64 ≠ none) → ∀ (cfg : OptCfg) (e : Endian) (ain aout : Nat) (inp buf : List Byte),
      SameResult (optDecompressBFC S cfg e ain aout inp buf) (optDecompressCfg cfg e ain aout inp buf) := by
  intro h
  have h1 := h .mod64 (fun x => by simp [OverShift.mod64]) ⟨false, true⟩ .little 0 0 op31Stream (List.replicate 16 0xaa)
  obtain ⟨b, hb⟩ := C115_invalid_op_accepted.2.1 ⟨false, true⟩
  rw [hb, C115_invalid_op_accepted.2.2.2 true] at h1
  rcases h1 with h | ⟨_, _, _, _, h, -⟩ <;> cases h

end Lib842.Props
