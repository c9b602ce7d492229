import Verif.Proofs.OptCall
import Verif.Proofs.OpCode
import Verif.Props.Sw
/-!
# Property theorems for the optimized codec (`optsw842_compress`, `optsw842_decompress`)

The statements only use the entry points of the model (`optsw842Compress`,
`optsw842Decompress`), the result type `Call` and the format specification in
`Verif/Spec.lean`.  `ain` and `aout` are the addresses of the input and the output buffer;
if one of them is not a multiple of 8 the functions fall back to the serial version.
`j` and `jsw` are the contents of freshly allocated memory.
-/

namespace Lib842.Props
open Spec

/-! ## Concrete data used in the examples -/

def ojunk0 : OptJunk := ⟨fun _ => 7, fun _ => 7, fun _ => 7, fun _ => 3, fun _ => 3, fun _ => 3⟩
def ojunk1 : OptJunk := ⟨fun _ => 1, fun _ => 0, fun _ => 9, fun _ => 0, fun _ => 0, fun _ => 0⟩

/-- 32 bytes: literal block, repeated block, mixed references, zeros. -/
def exIn8 : List Byte :=
  [65, 66, 67, 68, 69, 70, 71, 72, 65, 66, 67, 68, 69, 70, 71, 72,
   67, 68, 1, 2, 69, 70, 71, 72, 0, 0, 0, 0, 0, 0, 0, 0]

def exOut8 : List Byte :=
  [0x02, 0x0a, 0x12, 0x1a, 0x22, 0x2a, 0x32, 0x3a, 0x46, 0xc0, 0x70, 0x28, 0x08, 0x10, 0x0f, 0x9e,
   0x57, 0xf8, 0xac, 0x04, 0x00, 0x00, 0x00, 0x00]

theorem ex_opt_compress :
    view (optsw842Compress .little 0 0 ojunk0 junk0 exIn8 (List.replicate 40 0xaa)) = some (none, 24, exOut8) := by
  decide +kernel

theorem ex_opt_decompress :
    optsw842Decompress .little 0 0 exOut8 (List.replicate 33 0xaa) = .ret none 32 (exIn8 ++ [0xaa]) := by
  decide +kernel

/-! ## C02, C03: round trips -/

/-- C02: whatever `optsw842_compress` produces is restored by `optsw842_decompress`, for
every combination of alignments; only the fallback to the serial decompressor for
unaligned buffers is limited to `UINT_MAX` bytes. -/
theorem C02_opt_round_trip_partial (e e' : Endian) (ain aout ain' aout' : Nat) (j : OptJunk) (jsw : CompJunk)
    (x buf buf' : List Byte) (n : Nat) (b : List Byte)
    (hc : optsw842Compress e ain aout j jsw x buf = .ret none n b) (hcap : x.length ≤ buf'.length)
    (hlim : (ain' % 8 = 0 ∧ aout' % 8 = 0) ∨ x.length ≤ 0xffffffff) :
    ∃ b', optsw842Decompress e' ain' aout' (b.take n) buf' = .ret none x.length b' ∧
      b'.take x.length = x ∧ b'.length = buf'.length := by
  obtain ⟨h8, -, hn, hle, -, hl, hb⟩ := optsw842Compress_ok hc
  refine optDecompress_hw e' (b.take n) buf' ?_ (optBits_decodes h8 hb) hcap hlim
  rw [List.length_take, Nat.min_eq_left (by omega), hn]
  unfold paddedSize; omega

example : ∃ b, optsw842Compress .little 0 0 ojunk0 junk0 exIn8 (List.replicate 40 0xaa) = .ret none 24 b ∧
    b.take 24 = exOut8 := by
  have h := ex_opt_compress
  cases hc : optsw842Compress .little 0 0 ojunk0 junk0 exIn8 (List.replicate 40 0xaa) with
  | ret rc n b => rw [hc] at h; simp [view] at h; obtain ⟨rfl, rfl, h⟩ := h; exact ⟨b, rfl, h⟩
  | ub => rw [hc] at h; cases h
  | timeout => rw [hc] at h; cases h

/-- Without the restriction C02 is false: unaligned buffers, 4 GiB of zero bytes. -/
theorem C02_opt_round_trip_false :
    ¬ ∀ (e e' : Endian) (ain aout ain' aout' : Nat) (j : OptJunk) (jsw : CompJunk)
      (x buf buf' : List Byte) (n : Nat) (b : List Byte), x ≠ [] → x.length % 8 = 0 →
      optsw842Compress e ain aout j jsw x buf = .ret none n b → x.length ≤ buf'.length →
      ∃ b', optsw842Decompress e' ain' aout' (b.take n) buf' = .ret none x.length b' := by
  intro h
  obtain ⟨x, buf, n, b, hx8, hxl, hc, hd⟩ : ∃ x : List Byte, ∃ buf n b, x.length % 8 = 0 ∧ 0 < x.length ∧
      sw842Compress .little 0 junk0 x buf = .ret none n b ∧
      ∀ (e : Endian) (addr : Nat) (buf' : List Byte),
        ∃ b', sw842Decompress e addr (b.take n) buf' = .ret (some .ENOSPC) 0 b' := by
    have key : ∀ m cap, m % 8 = 0 → 0 < m → (∃ n b, sw842Compress .little 0 junk0 (List.replicate m 0#8)
        (List.replicate cap 0#8) = .ret none n b ∧
        ∀ (e : Endian) (addr : Nat) (buf' : List Byte),
          ∃ b', sw842Decompress e addr (b.take n) buf' = .ret (some .ENOSPC) 0 b') →
        ∃ x : List Byte, ∃ buf n b, x.length % 8 = 0 ∧ 0 < x.length ∧
          sw842Compress .little 0 junk0 x buf = .ret none n b ∧
          ∀ (e : Endian) (addr : Nat) (buf' : List Byte),
            ∃ b', sw842Decompress e addr (b.take n) buf' = .ret (some .ENOSPC) 0 b' := by
      intro m cap h1 h2 h3
      obtain ⟨n, b, h4, h5⟩ := h3
      exact ⟨List.replicate m 0#8, List.replicate cap 0#8, n, b, by rwa [List.length_replicate],
        by rwa [List.length_replicate], h4, h5⟩
    exact key (2 ^ 32) (2 ^ 30) (by norm_num) (by norm_num)
      (c28_aux (2 ^ 32) (2 ^ 30) (by norm_num) (by norm_num) (by norm_num) (by norm_num))
  have hsw : optsw842Compress .little 0 1 ojunk0 junk0 x buf = .ret none n b := by
    unfold optsw842Compress optsw842CompressF
    rw [if_neg (by omega), if_pos (by omega)]
    exact hc
  have hne : x ≠ [] := List.length_pos_iff.1 hxl
  obtain ⟨b', h'⟩ := h .little .little 0 1 0 1 ojunk0 junk0 x buf x n b hne hx8 hsw (Nat.le_refl _)
  rw [optDecompress_sw _ _ (by omega)] at h'
  obtain ⟨b'', h''⟩ := hd .little 1 x
  rw [h'] at h''
  cases h''

/-- C03: `optsw842_decompress` restores what `sw842_compress` produced from an input whose
length is a multiple of 8. -/
theorem C03_sw_then_opt (e e' : Endian) (addr ain' aout' : Nat) (j : CompJunk) (x buf buf' : List Byte)
    (n : Nat) (b : List Byte) (h8 : x.length % 8 = 0)
    (hc : sw842Compress e addr j x buf = .ret none n b) (hcap : x.length ≤ buf'.length)
    (hlim : (ain' % 8 = 0 ∧ aout' % 8 = 0) ∨ x.length ≤ 0xffffffff) :
    ∃ b', optsw842Decompress e' ain' aout' (b.take n) buf' = .ret none x.length b' ∧
      b'.take x.length = x ∧ b'.length = buf'.length := by
  obtain ⟨hn, hle, -, hl, hb⟩ := sw842Compress_ok hc
  refine optDecompress_hw e' (b.take n) buf' ?_ (C26_sw_hw_compatible e addr j x buf n b hc h8) hcap hlim
  rw [List.length_take, Nat.min_eq_left (by omega), hn]
  unfold paddedSize; omega

/-- C03: `sw842_decompress` restores what `optsw842_compress` produced. -/
theorem C03_opt_then_sw (e e' : Endian) (ain aout addr' : Nat) (j : OptJunk) (jsw : CompJunk)
    (x buf buf' : List Byte) (n : Nat) (b : List Byte) (hx : x.length ≤ 0xffffffff)
    (hc : optsw842Compress e ain aout j jsw x buf = .ret none n b) (hcap : x.length ≤ buf'.length) :
    ∃ b', sw842Decompress e' addr' (b.take n) buf' = .ret none x.length b' ∧
      b'.take x.length = x ∧ b'.length = buf'.length := by
  obtain ⟨h8, -, -, -, -, -, hb⟩ := optsw842Compress_ok hc
  obtain ⟨b', h1, h2, h3⟩ := sw842Decompress_decodes e' addr' (b.take n) buf' (optBits_decodes h8 hb).decodes
  refine ⟨b', ?_, h2 hcap, h1⟩
  rw [h3, if_neg (by omega), if_neg (by omega)]

example : sw842Decompress .big 3 exOut8 (List.replicate 33 0xaa) = .ret none 32 (exIn8 ++ [0xaa]) := by
  decide +kernel
example : exIn8.length % 8 = 0 ∧
    (view (sw842Compress .little 0 junk0 exIn8 (List.replicate 24 0xaa))).map (·.1) = some none := by
  decide +kernel

/-! ## C04, C06: memory safety -/

/-- C04 for `optsw842_compress`: the only call with undefined behaviour is the one with an
empty input and aligned buffers, which reads 8 bytes (842_compress.cpp 603). -/
theorem C04_opt_compress_in_bounds (e : Endian) (ain aout : Nat) (j : OptJunk) (jsw : CompJunk)
    (x buf : List Byte) :
    (optsw842Compress e ain aout j jsw x buf = .ub ↔ x = [] ∧ ain % 8 = 0 ∧ aout % 8 = 0) ∧
    optsw842Compress e ain aout j jsw x buf ≠ .timeout ∧
    (x ≠ [] → ∃ rc n b, optsw842Compress e ain aout j jsw x buf = .ret rc n b ∧ b.length = buf.length) := by
  by_cases h8 : x.length % 8 = 0
  swap
  · rw [optsw842Compress_odd _ _ _ _ _ _ _ h8]
    refine ⟨⟨fun h => (by cases h), ?_⟩, by simp, fun _ => ⟨_, _, _, rfl, rfl⟩⟩
    rintro ⟨rfl, -⟩
    exact absurd rfl h8
  by_cases hne : x ≠ [] ∨ ain % 8 ≠ 0 ∨ aout % 8 ≠ 0
  · obtain ⟨b, hl, hr⟩ := optsw842Compress_eq e ain aout j jsw x buf h8 hne
    have hret : ∃ rc n, optsw842Compress e ain aout j jsw x buf = .ret rc n b := by
      rcases hr with ⟨-, -, h, -⟩ | ⟨-, h⟩
      · exact ⟨_, _, h⟩
      · exact ⟨_, _, h⟩
    obtain ⟨rc, n, h⟩ := hret
    rw [h]
    refine ⟨⟨fun h => (by cases h), ?_⟩, by simp, fun _ => ⟨_, _, _, rfl, hl⟩⟩
    rintro ⟨h1, h2, h3⟩
    rcases hne with h | h | h
    · exact absurd h1 h
    · exact absurd h2 h
    · exact absurd h3 h
  · obtain rfl : x = [] := by by_contra hx; exact hne (.inl hx)
    have hal : ain % 8 = 0 ∧ aout % 8 = 0 := by omega
    rw [optsw842Compress_nil _ _ _ _ _ _ hal]
    exact ⟨⟨fun _ => ⟨rfl, hal⟩, fun _ => rfl⟩, by simp, fun h => absurd rfl h⟩

/-- C06: with aligned buffers `optsw842_decompress` has no undefined behaviour on any input
and never changes the size of the output buffer. -/
theorem C06_opt_decompress_memory_safe (e : Endian) (ain aout : Nat) (inp buf : List Byte)
    (hal : ain % 8 = 0 ∧ aout % 8 = 0) :
    optsw842Decompress e ain aout inp buf ≠ .ub ∧
    ∃ rc n b, optsw842Decompress e ain aout inp buf = .ret rc n b ∧ b.length = buf.length := by
  have hr := optDecompress_res e hal inp buf
  generalize optsw842Decompress e ain aout inp buf = r at hr
  cases hr with
  | ok _ _ hb _ => exact ⟨by simp, _, _, _, rfl, hb⟩
  | err hb => exact ⟨by simp, _, _, _, rfl, hb⟩

/-- The stream that makes the serial decompressor read out of bounds is rejected. -/
example : optsw842Decompress .little 0 0 [0xe9, 0x41, 0xd8, 0x00, 0, 0, 0, 0] (List.replicate 16 0xaa) =
    .ret (some .EINVAL) 0 (List.replicate 16 0xaa) := by decide +kernel

/-! ## C07, C08 -/

/-- C07 for `optsw842_compress`, for calls that agree in whether both buffers are aligned. -/
theorem C07_opt_length_contract (e e' : Endian) (ain aout ain' aout' : Nat) (j j' : OptJunk)
    (jsw jsw' : CompJunk) (x buf buf' : List Byte) (n n' : Nat) (b b' : List Byte)
    (hal : (ain % 8 = 0 ∧ aout % 8 = 0) ↔ (ain' % 8 = 0 ∧ aout' % 8 = 0))
    (h : optsw842Compress e ain aout j jsw x buf = .ret none n b)
    (h' : optsw842Compress e' ain' aout' j' jsw' x buf' = .ret none n' b') :
    0 < n ∧ n % 8 = 0 ∧ n ≤ buf.length ∧ n ≤ b.length ∧ n' = n ∧ b'.take n' = b.take n := by
  obtain ⟨-, -, hn, h2, h3, h4, h5⟩ := optsw842Compress_ok h
  obtain ⟨-, -, hn', h2', h3', h4', h5'⟩ := optsw842Compress_ok h'
  have heq : optBits ain' aout' x = optBits ain aout x := by
    unfold optBits
    by_cases ha : ain % 8 ≠ 0 ∨ aout % 8 ≠ 0
    · rw [if_pos ha, if_pos (by omega)]
    · rw [if_neg ha, if_neg (by omega)]
  rw [heq] at hn' h5'
  have hge := optBits_length_ge ain aout x
  have hnn : n' = n := by rw [hn, hn']
  refine ⟨?_, ?_, h2, by omega, hnn, ?_⟩
  · rw [hn]; unfold paddedSize; omega
  · rw [hn]; unfold paddedSize; omega
  · subst hnn
    exact bytesBits_inj (h5'.trans h5.symm)

example : view (optsw842Compress .big 8 16 ojunk1 junk1 exIn8 (List.replicate 24 0x55)) = some (none, 24, exOut8) := by
  decide +kernel

/-- C08 for `optsw842_decompress`. -/
theorem C08_opt_decompress_olen_zero (e : Endian) (ain aout : Nat) (inp buf : List Byte) (er : Errno)
    (n : Nat) (b : List Byte) (h : optsw842Decompress e ain aout inp buf = .ret (some er) n b) : n = 0 := by
  by_cases hal : ain % 8 ≠ 0 ∨ aout % 8 ≠ 0
  · rw [optDecompress_sw _ _ hal] at h
    exact C08_sw_decompress_olen_zero e aout inp buf er n b h
  · have hr := optDecompress_res e (ain := ain) (aout := aout) (by omega) inp buf
    rw [h] at hr
    cases hr; rfl

/-- C08 is false for `optsw842_compress`: for a length that is not a multiple of 8 it
returns `-EINVAL` and leaves `*olen` alone (842_compress.cpp 572-579). -/
theorem C08_opt_compress_olen_kept (e : Endian) (ain aout : Nat) (j : OptJunk) (jsw : CompJunk)
    (x buf : List Byte) (h : x.length % 8 ≠ 0) :
    optsw842Compress e ain aout j jsw x buf = .ret (some .EINVAL) buf.length buf :=
  optsw842Compress_odd e ain aout j jsw x buf h

theorem C08_opt_compress_olen_zero_false :
    ¬ ∀ (e : Endian) (ain aout : Nat) (j : OptJunk) (jsw : CompJunk) (x buf : List Byte) (er : Errno)
      (n : Nat) (b : List Byte), optsw842Compress e ain aout j jsw x buf = .ret (some er) n b → n = 0 := by
  intro h
  have := h .little 0 0 ojunk0 junk0 [1] [0, 0] .EINVAL 2 [0, 0]
    (C08_opt_compress_olen_kept .little 0 0 ojunk0 junk0 [1] [0, 0] (by decide))
  cases this

/-- All other failures do set `*olen` to 0. -/
theorem C08_opt_compress_olen_zero_partial (e : Endian) (ain aout : Nat) (j : OptJunk) (jsw : CompJunk)
    (x buf : List Byte) (er : Errno) (n : Nat) (b : List Byte)
    (h : optsw842Compress e ain aout j jsw x buf = .ret (some er) n b) :
    (er = .EINVAL ∧ x.length % 8 ≠ 0 ∧ n = buf.length) ∨ (er = .ENOSPC ∧ x.length % 8 = 0 ∧ n = 0) := by
  by_cases h8 : x.length % 8 = 0
  swap
  · rw [optsw842Compress_odd _ _ _ _ _ _ _ h8] at h
    cases h
    exact .inl ⟨rfl, h8, rfl⟩
  by_cases hne : x ≠ [] ∨ ain % 8 ≠ 0 ∨ aout % 8 ≠ 0
  · obtain ⟨b', hl, hr⟩ := optsw842Compress_eq e ain aout j jsw x buf h8 hne
    rcases hr with ⟨-, -, h', -⟩ | ⟨-, h'⟩
    · rw [h] at h'; cases h'
    · rw [h] at h'; cases h'; exact .inr ⟨rfl, h8, rfl⟩
  · obtain rfl : x = [] := by by_contra hx; exact hne (.inl hx)
    rw [optsw842Compress_nil _ _ _ _ _ _ (by omega)] at h
    cases h

/-! ## C09 -/

/-- C09 for `optsw842_decompress`. -/
theorem C09_opt_decompress_terminates (e : Endian) (ain aout fuel : Nat) (inp buf : List Byte)
    (hf : 8 * inp.length / 5 < fuel) :
    optsw842DecompressF fuel e ain aout inp buf ≠ .timeout ∧
    optsw842DecompressF fuel e ain aout inp buf = optsw842Decompress e ain aout inp buf := by
  have hf' : 8 * inp.length < 5 * fuel := by omega
  refine ⟨?_, ?_⟩
  · intro h
    by_cases hal : ain % 8 ≠ 0 ∨ aout % 8 ≠ 0
    · unfold optsw842DecompressF at h
      rw [if_pos hal] at h
      exact (C09_sw_decompress_terminates e aout fuel inp buf hf).1 h
    · have hr := optDecompF_res e ain aout fuel (by omega) inp buf hf'
      rw [h] at hr
      cases hr
  · unfold optsw842Decompress
    rcases Nat.le_total fuel (8 * inp.length + 1) with h | h
    · exact (optDecompF_fuel e ain aout inp buf hf' h).symm
    · exact optDecompF_fuel e ain aout inp buf (sw842Decompress_fuel inp) h

example : optsw842DecompressF 5 .little 0 0 [0xe7, 0x39, 0xce, 0x70, 0, 0, 0, 0] (List.replicate 60 0) = .timeout ∧
    optsw842DecompressF 8 .little 0 0 [0xe7, 0x39, 0xce, 0x70, 0, 0, 0, 0] (List.replicate 60 0) ≠ .timeout := by
  decide +kernel

/-! ## C10, C12 -/

/-- C10 for `optsw842_compress`: per input (and per alignment class of the buffers) one
fixed byte string, produced whenever it fits. -/
theorem C10_opt_capacity_exact (x : List Byte) (h8 : x.length % 8 = 0) (hne : x ≠ []) :
    (∃ s : List Byte, ∀ (e : Endian) (ain aout : Nat) (j : OptJunk) (jsw : CompJunk) (buf : List Byte),
      ain % 8 = 0 → aout % 8 = 0 → ∃ b, b.length = buf.length ∧
      if s.length ≤ buf.length then
        optsw842Compress e ain aout j jsw x buf = .ret none s.length b ∧ b = s ++ buf.drop s.length
      else optsw842Compress e ain aout j jsw x buf = .ret (some .ENOSPC) 0 b) ∧
    (∀ (e : Endian) (ain aout : Nat) (j : OptJunk) (jsw : CompJunk) (buf : List Byte),
      ain % 8 ≠ 0 ∨ aout % 8 ≠ 0 →
      optsw842Compress e ain aout j jsw x buf = sw842Compress e ain jsw x buf) := by
  refine ⟨?_, ?_⟩
  swap
  · intro e ain aout j jsw buf hal
    unfold optsw842Compress optsw842CompressF
    rw [if_neg (by omega), if_pos hal]; rfl
  obtain ⟨b0, hl0, h0⟩ := optCompressF_eq .big 0 ojunk0 junk0
    (List.replicate (paddedSize (ostreamBits x).length) 0#8) (ain := 0) (aout := 0) ⟨rfl, rfl⟩ h8 hne
  rw [List.length_replicate] at hl0 h0
  rw [if_pos (Nat.le_refl _)] at h0
  refine ⟨b0, fun e ain aout j jsw buf ha hb => ?_⟩
  obtain ⟨b, hl, h⟩ := optCompressF_eq e 0 j jsw buf ⟨ha, hb⟩ h8 hne
  rw [Nat.zero_add] at h
  refine ⟨b, hl, ?_⟩
  rw [hl0]
  split
  · rename_i hc
    rw [if_pos hc] at h
    refine ⟨h.1, ?_⟩
    have : b.take (paddedSize (ostreamBits x).length) = b0.take (paddedSize (ostreamBits x).length) :=
      bytesBits_inj (h.2.1.trans h0.2.1.symm)
    rw [List.take_of_length_le (l := b0) (by omega)] at this
    rw [← this, ← h.2.2, List.take_append_drop]
  · rename_i hc
    rwa [if_neg hc] at h

example : exIn8.length % 8 = 0 ∧ exIn8 ≠ [] ∧
    view (optsw842Compress .little 0 0 ojunk0 junk0 exIn8 (List.replicate 24 0xaa)) = some (none, 24, exOut8) ∧
    view (optsw842Compress .little 0 0 ojunk0 junk0 exIn8 (List.replicate 23 0xaa)) = some (some .ENOSPC, 0, []) :=
  ⟨by decide, by decide, by decide +kernel, by decide +kernel⟩

/-- C12 for `optsw842_compress` (its inputs have a length that is a multiple of 8). -/
theorem C12_opt_worst_case (e : Endian) (ain aout : Nat) (j : OptJunk) (jsw : CompJunk) (x buf : List Byte)
    (h8 : x.length % 8 = 0) (hne : x ≠ [])
    (hcap : 8 * ((69 * (x.length / 8) + 37 + 63) / 64) ≤ buf.length)
    (hmax : (ain % 8 = 0 ∧ aout % 8 = 0) ∨ 8 * ((69 * (x.length / 8) + 37 + 63) / 64) ≤ 0xffffffff) :
    ∃ n b, optsw842Compress e ain aout j jsw x buf = .ret none n b ∧
      n ≤ 8 * ((69 * (x.length / 8) + 37 + 63) / 64) := by
  obtain ⟨b, hl, hr⟩ := optsw842Compress_eq e ain aout j jsw x buf h8 (.inl hne)
  have hle := optBits_length_le ain aout x h8
  have hp : paddedSize (optBits ain aout x).length ≤ 8 * ((69 * (x.length / 8) + 37 + 63) / 64) := by
    unfold paddedSize
    exact Nat.mul_le_mul_left _ (Nat.div_le_div_right (by omega))
  rcases hr with ⟨-, -, h, -⟩ | ⟨hneg, -⟩
  · exact ⟨_, b, h, hp⟩
  · refine absurd ⟨by omega, ?_⟩ hneg
    rcases hmax with h | h
    · exact .inl h
    · exact .inr (by omega)

example : (view (optsw842Compress .little 0 0 ojunk0 junk0
    [1, 2, 3, 4, 5, 6, 7, 8, 11, 12, 13, 14, 15, 16, 17, 18] (List.replicate 40 0))).map (·.2.1) =
      some (8 * ((69 * 2 + 37 + 63) / 64)) := by decide +kernel

/-! ## C14, C15 -/

/-- C14: with aligned buffers success with output `d` if and only if the input, cut to
whole 64-bit words, is a stream without short data for `d`, and `d` fits. -/
theorem C14_opt_accepts_exactly_format (e : Endian) (ain aout : Nat) (inp buf d : List Byte)
    (hal : ain % 8 = 0 ∧ aout % 8 = 0) :
    (∃ b, optsw842Decompress e ain aout inp buf = .ret none d.length b ∧ b.take d.length = d) ↔
      HwDecodes (inp.take (8 * (inp.length / 8))) d ∧ d.length ≤ buf.length := by
  constructor
  · rintro ⟨b, h, ht⟩
    obtain ⟨h1, -, h3, -⟩ := optDecompress_ok hal h
    rw [ht] at h1
    exact ⟨h1, h3⟩
  · rintro ⟨hd, h1⟩
    obtain ⟨b, hb, ht, h⟩ := optDecompress_decodes e hal inp buf hd
    rw [if_neg (by omega)] at h
    exact ⟨b, h, ht h1⟩

/-- Every success of `optsw842_decompress` on aligned buffers is such a decoding. -/
theorem C14_opt_success_is_decoding (e : Endian) (ain aout : Nat) (inp buf : List Byte) (n : Nat)
    (b : List Byte) (hal : ain % 8 = 0 ∧ aout % 8 = 0)
    (h : optsw842Decompress e ain aout inp buf = .ret none n b) :
    HwDecodes (inp.take (8 * (inp.length / 8))) (b.take n) ∧ (b.take n).length = n :=
  ⟨(optDecompress_ok hal h).1, (optDecompress_ok hal h).2.1⟩

/-- C15 for `optsw842_decompress`, any alignment. -/
theorem C15_opt_crc_checked (e : Endian) (ain aout : Nat) (inp buf : List Byte) (n : Nat) (b : List Byte)
    (h : optsw842Decompress e ain aout inp buf = .ret none n b) :
    ∃ ops R, Expands ops (b.take n) ∧ bytesBits inp =
      ops.flatMap Op.bits ++ bitsOf 5 0x1e ++ bitsOf 32 (crc (b.take n)).toNat ++ R := by
  by_cases hal : ain % 8 ≠ 0 ∨ aout % 8 ≠ 0
  · rw [optDecompress_sw _ _ hal] at h
    exact C15_sw_crc_checked e aout inp buf n b h
  · obtain ⟨ops, R, h1, h2⟩ := (optDecompress_ok (by omega) h).1.of_words.decodes
    refine ⟨ops, R, h1, ?_⟩
    rw [h2, trailer]; simp only [List.append_assoc]

/-- C15: a stream without short data, of a size that is a multiple of 8, with any other CRC
is rejected with `-EINVAL`. -/
theorem C15_opt_wrong_crc (e : Endian) (ain aout : Nat) (inp buf : List Byte) (ops : List Op) (d : List Byte)
    (c : BitVec 32) (R : List Bool) (hd : Expands ops d) (hsh : ∀ op ∈ ops, op.isShort = false)
    (hfit : d.length ≤ buf.length) (hc : c ≠ crc d) (h8 : inp.length % 8 = 0)
    (hin : bytesBits inp = ops.flatMap Op.bits ++ bitsOf 5 0x1e ++ bitsOf 32 c.toNat ++ R) :
    ∃ b, optsw842Decompress e ain aout inp buf = .ret (some .EINVAL) 0 b := by
  by_cases hal : ain % 8 ≠ 0 ∨ aout % 8 ≠ 0
  · rw [optDecompress_sw _ _ hal]
    exact C15_sw_wrong_crc e aout inp buf ops d c R hd hfit hc hin
  · obtain ⟨b, -, -, h⟩ := optDecompress_of e (ain := ain) (aout := aout) (by omega) inp buf hd hsh (c := c) (R := R)
      (by rw [words_of_mod h8, hin]; simp only [List.append_assoc])
    rw [if_neg (by omega), if_pos hc] at h
    exact ⟨b, h⟩

example : view (optsw842Decompress .little 0 0 (exOut8.set 17 0x25) (List.replicate 33 0xaa)) =
    some (some .EINVAL, 0, []) := by decide +kernel

/-! ## C21 -/

/-- C21 for `optsw842_compress`: neither the uninitialised workspace nor the one of the
fallback matters (the empty aligned input is the undefined case of C04). -/
theorem C21_opt_workspace_independent (e : Endian) (ain aout : Nat) (j j' : OptJunk) (jsw jsw' : CompJunk)
    (x buf : List Byte) (hne : x ≠ []) :
    ∃ rc n b b', optsw842Compress e ain aout j jsw x buf = .ret rc n b ∧
      optsw842Compress e ain aout j' jsw' x buf = .ret rc n b' ∧ b'.take n = b.take n := by
  by_cases h8 : x.length % 8 = 0
  swap
  · rw [optsw842Compress_odd _ _ _ _ _ _ _ h8, optsw842Compress_odd _ _ _ _ _ _ _ h8]
    exact ⟨_, _, _, _, rfl, rfl, rfl⟩
  obtain ⟨b, hl, h⟩ := optsw842Compress_eq e ain aout j jsw x buf h8 (.inl hne)
  obtain ⟨b', hl', h'⟩ := optsw842Compress_eq e ain aout j' jsw' x buf h8 (.inl hne)
  rcases h with ⟨h1, h2, h3, h4⟩ | ⟨h1, h3⟩
  · rcases h' with ⟨-, -, h3', h4'⟩ | ⟨h1', -⟩
    · exact ⟨_, _, b, b', h3, h3', bytesBits_inj (h4'.trans h4.symm)⟩
    · exact absurd ⟨h1, h2⟩ h1'
  · rcases h' with ⟨h1', h2', -, -⟩ | ⟨-, h3'⟩
    · exact absurd ⟨h1', h2'⟩ h1
    · exact ⟨_, _, b, b', h3, h3', rfl⟩

/-! ## C23, C24 -/

/-- C23 for `optsw842_decompress`, any alignment: the bits after the CRC can be replaced
arbitrarily and the input can be extended.  (It must not become shorter: the input is
cut to whole 64-bit words.) -/
theorem C23_opt_trailing_ignored (e : Endian) (ain aout : Nat) (inp inp' buf : List Byte) (ops : List Op)
    (d : List Byte) (R R' : List Bool) (hd : Expands ops d) (hlen : inp.length ≤ inp'.length)
    (hin : bytesBits inp = ops.flatMap Op.bits ++ trailer d ++ R)
    (hin' : bytesBits inp' = ops.flatMap Op.bits ++ trailer d ++ R') (n : Nat) (b : List Byte)
    (h : optsw842Decompress e ain aout inp buf = .ret none n b) :
    n = d.length ∧ b.take n = d ∧
    ∃ b', optsw842Decompress e ain aout inp' buf = .ret none n b' ∧ b'.take n = b.take n := by
  by_cases hal : ain % 8 ≠ 0 ∨ aout % 8 ≠ 0
  · rw [optDecompress_sw _ _ hal] at h
    rw [optDecompress_sw _ _ hal]
    exact C23_sw_trailing_ignored e aout inp inp' buf ops d R R' hd hin hin' n b h
  obtain ⟨h1, h2, h3, h4⟩ := optDecompress_ok (by omega) h
  have hdd : Decodes inp d := ⟨ops, R, hd, hin⟩
  have heq := decodes_unique h1.of_words.decodes hdd
  have hn : n = d.length := by rw [← heq, h2]
  refine ⟨hn, heq, ?_⟩
  -- the ops inside the cut input
  obtain ⟨ops2, R2, e1, e2, e3⟩ := h1
  rw [heq] at e1 e3
  obtain ⟨Rw, hRw⟩ := words_prefix inp
  -- both op sequences are prefixes of the same bits, so they agree
  have hops : ops2 = ops ∧ R2 ++ Rw = R := ops_unique e1 hd (by
    rw [← hin, hRw, e3]; simp only [List.append_assoc])
  obtain ⟨rfl, hR⟩ := hops
  have hlw : (ops2.flatMap Op.bits ++ trailer d).length ≤ (bytesBits (ODecomp.words inp)).length := by
    rw [e3]; simp only [List.length_append]; omega
  have hw' : HwDecodes (ODecomp.words inp') d := by
    have hle : (bytesBits (ODecomp.words inp)).length ≤ (bytesBits (ODecomp.words inp')).length := by
      rw [length_bytesBits, length_bytesBits, length_words, length_words]; omega
    obtain ⟨Rw', hRw'⟩ := words_prefix inp'
    rw [hRw'] at hin'
    have hpre : (bytesBits (ODecomp.words inp')).take (ops2.flatMap Op.bits ++ trailer d).length =
        ops2.flatMap Op.bits ++ trailer d := by
      have := congrArg (List.take (ops2.flatMap Op.bits ++ trailer d).length) hin'
      rwa [List.take_append_of_le_length (by omega), List.take_left'] at this
      rfl
    refine ⟨ops2, (bytesBits (ODecomp.words inp')).drop (ops2.flatMap Op.bits ++ trailer d).length, hd, e2, ?_⟩
    conv_lhs => rw [← List.take_append_drop (ops2.flatMap Op.bits ++ trailer d).length
      (bytesBits (ODecomp.words inp')), hpre]
  obtain ⟨b', hb, ht, h'⟩ := optDecompress_decodes e (ain := ain) (aout := aout) (by omega) inp' buf hw'
  rw [if_neg (by omega)] at h'
  refine ⟨b', by rw [h', hn], ?_⟩
  rw [heq, hn]
  exact ht (by omega)

/-- C23: appending anything. -/
theorem C23_opt_appended_ignored (e : Endian) (ain aout : Nat) (inp extra buf : List Byte) (n : Nat)
    (b : List Byte) (h : optsw842Decompress e ain aout inp buf = .ret none n b) :
    ∃ b', optsw842Decompress e ain aout (inp ++ extra) buf = .ret none n b' ∧ b'.take n = b.take n := by
  obtain ⟨ops, R, h1, h2⟩ := C15_opt_crc_checked e ain aout inp buf n b h
  have h2' : bytesBits inp = ops.flatMap Op.bits ++ trailer (b.take n) ++ R := by
    rw [h2, trailer]; simp only [List.append_assoc]
  exact (C23_opt_trailing_ignored e ain aout inp (inp ++ extra) buf ops _ R (R ++ bytesBits extra) h1
    (by simp) h2' (by rw [bytesBits_append, h2']; simp only [List.append_assoc]) n b h).2.2

example : optsw842Decompress .little 0 0 (exOut8.take 20 ++ [0xff, 0x12, 0x77, 0x99]) (List.replicate 33 0xaa) =
    .ret none 32 (exIn8 ++ [0xaa]) := by decide +kernel

/-- C24 for `optsw842_decompress`, any alignment. -/
theorem C24_opt_capacity_exact (e : Endian) (ain aout : Nat) (inp buf buf' : List Byte) (n : Nat) (b : List Byte)
    (h : optsw842Decompress e ain aout inp buf = .ret none n b) :
    (n ≤ buf'.length →
      ∃ b', optsw842Decompress e ain aout inp buf' = .ret none n b' ∧ b'.take n = b.take n) ∧
    (buf'.length < n → ∃ b', optsw842Decompress e ain aout inp buf' = .ret (some .ENOSPC) 0 b') := by
  by_cases hal : ain % 8 ≠ 0 ∨ aout % 8 ≠ 0
  · rw [optDecompress_sw _ _ hal] at h
    rw [optDecompress_sw _ _ hal]
    exact C24_sw_capacity_exact e aout inp buf buf' n b h
  obtain ⟨h1, h2, h3, h4⟩ := optDecompress_ok (by omega) h
  obtain ⟨b', hb, ht, h'⟩ := optDecompress_decodes e (ain := ain) (aout := aout) (by omega) inp buf' h1
  rw [h2] at ht h'
  constructor
  · intro hle
    rw [if_neg (by omega)] at h'
    exact ⟨b', h', ht hle⟩
  · intro hlt
    rw [if_pos hlt] at h'
    exact ⟨b', h'⟩

example : view (optsw842Decompress .little 0 0 exOut8 (List.replicate 31 0xaa)) = some (some .ENOSPC, 0, []) := by
  decide +kernel

/-! ## C25 -/

/-- C25 for `optsw842_compress`. -/
theorem C25_opt_compress_endian (ain aout : Nat) (j : OptJunk) (jsw : CompJunk) (x buf : List Byte) :
    optsw842Compress .little ain aout j jsw x buf = optsw842Compress .big ain aout j jsw x buf :=
  optsw842Compress_big .little ain aout j jsw x buf

/-- C25 for `optsw842_decompress`. -/
theorem C25_opt_decompress_endian (ain aout : Nat) (inp buf : List Byte) :
    optsw842Decompress .little ain aout inp buf = optsw842Decompress .big ain aout inp buf :=
  optsw842Decompress_big .little ain aout inp buf

/-! ## C26 -/

/-- C26 for `optsw842_compress`: everything it produces is in the hardware format. -/
theorem C26_opt_hw_compatible (e : Endian) (ain aout : Nat) (j : OptJunk) (jsw : CompJunk) (x buf : List Byte)
    (n : Nat) (b : List Byte) (h : optsw842Compress e ain aout j jsw x buf = .ret none n b) :
    x.length % 8 = 0 ∧ HwDecodes (b.take n) x := by
  obtain ⟨h8, -, -, -, -, -, hb⟩ := optsw842Compress_ok h
  exact ⟨h8, optBits_decodes h8 hb⟩

/-- C26: other lengths are refused with `-EINVAL`, and the output is not touched. -/
theorem C26_opt_refuses_odd (e : Endian) (ain aout : Nat) (j : OptJunk) (jsw : CompJunk) (x buf : List Byte)
    (h : x.length % 8 ≠ 0) : ∃ n, optsw842Compress e ain aout j jsw x buf = .ret (some .EINVAL) n buf :=
  ⟨_, optsw842Compress_odd e ain aout j jsw x buf h⟩

/-! ## C27 -/

/-- C27 is false: a stream with a short-data op is rejected with aligned buffers and
accepted with unaligned ones. -/
theorem C27_opt_alignment_false :
    ¬ ∀ (e : Endian) (ain aout ain' aout' : Nat) (inp buf : List Byte),
      optsw842Decompress e ain aout inp buf = optsw842Decompress e ain' aout' inp buf := by
  intro h
  have h1 : view (optsw842Decompress .little 0 0 exOut (List.replicate 20 0xaa)) = some (some .EINVAL, 0, []) := by
    decide +kernel
  have h2 : view (optsw842Decompress .little 0 1 exOut (List.replicate 20 0xaa)) = some (none, 19, exIn) := by
    decide +kernel
  rw [h .little 0 0 0 1, h2] at h1
  cases h1

/-- A stream cut inside a 64-bit word after its CRC is also treated differently. -/
theorem C27_opt_alignment_cut :
    view (optsw842Decompress .little 0 0 (exOut8.take 20) (List.replicate 33 0xaa)) = some (some .EINVAL, 0, []) ∧
    view (optsw842Decompress .little 0 1 (exOut8.take 20) (List.replicate 33 0xaa)) = some (none, 32, exIn8) := by
  constructor <;> decide +kernel

/-- What `optsw842_compress` produces also depends on the alignment: its hash table forgets
`01 02` when `04 dd`, which has the same hash, follows. -/
theorem C27_opt_compress_alignment :
    (view (optsw842Compress .little 0 0 ojunk0 junk0
      [1, 2, 3, 4, 5, 6, 7, 8, 0x04, 0xdd, 11, 12, 13, 14, 15, 16, 1, 2, 21, 22, 23, 24, 25, 26]
      (List.replicate 64 0))).map (·.2.2.take 18) ≠
    (view (optsw842Compress .little 0 1 ojunk0 junk0
      [1, 2, 3, 4, 5, 6, 7, 8, 0x04, 0xdd, 11, 12, 13, 14, 15, 16, 1, 2, 21, 22, 23, 24, 25, 26]
      (List.replicate 64 0))).map (·.2.2.take 18) := by
  decide +kernel

/-- C27 holds for complete hardware-format streams of at most `UINT_MAX` bytes of output
(in particular for everything the compressors produce from such inputs of a length that is a multiple of 8):
all alignments give the same result. -/
theorem C27_opt_alignment_partial (e : Endian) (ain aout : Nat) (inp buf d : List Byte)
    (h : HwDecodes (inp.take (8 * (inp.length / 8))) d) (hd : d.length ≤ 0xffffffff) :
    ∃ b, (d.length ≤ buf.length → b.take d.length = d) ∧
      optsw842Decompress e ain aout inp buf =
        if buf.length < d.length then .ret (some .ENOSPC) 0 b else .ret none d.length b := by
  by_cases hal : ain % 8 ≠ 0 ∨ aout % 8 ≠ 0
  · rw [optDecompress_sw _ _ hal]
    obtain ⟨b, h1, h2, h3⟩ := sw842Decompress_decodes e aout inp buf
      (Spec.HwDecodes.of_words (inp := inp) h).decodes
    refine ⟨b, h2, ?_⟩
    rw [h3]
    split
    · rfl
    · rw [if_neg (by omega)]
  · obtain ⟨b, h1, h2, h3⟩ := optDecompress_decodes e (ain := ain) (aout := aout) (by omega) inp buf h
    exact ⟨b, h2, h3⟩

end Lib842.Props
