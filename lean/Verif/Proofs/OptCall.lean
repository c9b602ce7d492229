import Verif.Proofs.OptEndian
/-!
# `optsw842_compress` and `optsw842_decompress` as seen by a caller
-/

namespace Lib842
open Spec

/-- The bits a successful `optsw842_compress` produces, without padding. -/
noncomputable def optBits (ain aout : Nat) (x : List Byte) : List Bool :=
  if ain % 8 ≠ 0 ∨ aout % 8 ≠ 0 then streamBits x else ostreamBits x

/-- Largest length the call can return: the fallback to the serial version is limited to
`UINT_MAX`. -/
def OptLim (ain aout n : Nat) : Prop := (ain % 8 = 0 ∧ aout % 8 = 0) ∨ n ≤ 0xffffffff

theorem optsw842Compress_eq (e : Endian) (ain aout : Nat) (j : OptJunk) (jsw : CompJunk) (x buf : List Byte)
    (h8 : x.length % 8 = 0) (hne : x ≠ [] ∨ ain % 8 ≠ 0 ∨ aout % 8 ≠ 0) :
    ∃ b, b.length = buf.length ∧
      ((paddedSize (optBits ain aout x).length ≤ buf.length ∧
          OptLim ain aout (paddedSize (optBits ain aout x).length) ∧
        optsw842Compress e ain aout j jsw x buf = .ret none (paddedSize (optBits ain aout x).length) b ∧
        bytesBits (b.take (paddedSize (optBits ain aout x).length)) = optBits ain aout x ++
          List.replicate (8 * paddedSize (optBits ain aout x).length - (optBits ain aout x).length) false) ∨
      (¬ (paddedSize (optBits ain aout x).length ≤ buf.length ∧
          OptLim ain aout (paddedSize (optBits ain aout x).length)) ∧
        optsw842Compress e ain aout j jsw x buf = .ret (some .ENOSPC) 0 b)) := by
  by_cases hal : ain % 8 ≠ 0 ∨ aout % 8 ≠ 0
  · have hal' : ¬ (ain % 8 = 0 ∧ aout % 8 = 0) := by omega
    have hf : optsw842Compress e ain aout j jsw x buf = sw842Compress e ain jsw x buf := by
      unfold optsw842Compress optsw842CompressF
      rw [if_neg (by omega), if_pos hal]; rfl
    rw [hf]
    unfold optBits OptLim
    simp only [if_pos hal]
    obtain ⟨b, hl, h⟩ := sw842Compress_eq e ain jsw x buf
    refine ⟨b, hl, ?_⟩
    split at h
    · rename_i hc
      exact .inl ⟨hc.1, .inr hc.2, h.1, h.2⟩
    · rename_i hc
      refine .inr ⟨?_, h⟩
      rintro ⟨h1, h2 | h2⟩
      · exact hal' h2
      · exact hc ⟨h1, h2⟩
  · have hal' : ain % 8 = 0 ∧ aout % 8 = 0 := by omega
    obtain ⟨b, hl, h⟩ := optCompressF_eq e 0 j jsw buf hal' h8 (hne.resolve_right hal)
    rw [Nat.zero_add] at h
    unfold optBits OptLim
    simp only [if_neg hal]
    refine ⟨b, hl, ?_⟩
    split at h
    · rename_i hc
      exact .inl ⟨hc, .inl hal', h.1, h.2.1⟩
    · rename_i hc
      exact .inr ⟨fun hh => hc hh.1, h⟩

theorem optsw842Compress_nil (e : Endian) (ain aout : Nat) (j : OptJunk) (jsw : CompJunk) (buf : List Byte)
    (hal : ain % 8 = 0 ∧ aout % 8 = 0) : optsw842Compress e ain aout j jsw [] buf = .ub :=
  optCompressF_nil e _ j jsw buf hal

theorem optsw842Compress_odd (e : Endian) (ain aout : Nat) (j : OptJunk) (jsw : CompJunk) (x buf : List Byte)
    (h8 : x.length % 8 ≠ 0) : optsw842Compress e ain aout j jsw x buf = .ret (some .EINVAL) buf.length buf := by
  unfold optsw842Compress optsw842CompressF
  rw [if_pos h8]

theorem ostreamBits_length_ge (x : List Byte) : 37 ≤ (ostreamBits x).length := by
  unfold ostreamBits
  simp [trailer]

theorem optBits_length_ge (ain aout : Nat) (x : List Byte) : 37 ≤ (optBits ain aout x).length := by
  unfold optBits
  split
  · exact streamBits_length_ge x
  · exact ostreamBits_length_ge x

theorem optBits_length_le (ain aout : Nat) (x : List Byte) (h8 : x.length % 8 = 0) :
    (optBits ain aout x).length ≤ 69 * (x.length / 8) + 37 := by
  unfold optBits
  split
  · have := streamBits_length_le x
    rw [if_pos h8] at this
    omega
  · unfold ostreamBits orefOps
    have h := orefLoop_bits x (x.length / 8) (T := .init) (pos := 0) (last := none) (rc := 0) rfl (by omega)
    simp only [List.length_append, trailer, length_bitsOf]
    omega

/-- The stream of either branch is a hardware-compatible stream for the input. -/
theorem optBits_decodes {ain aout : Nat} {x inp : List Byte} {R : List Bool} (h8 : x.length % 8 = 0)
    (h : bytesBits inp = optBits ain aout x ++ R) : HwDecodes inp x := by
  unfold optBits at h
  split at h
  · refine ⟨refOps x, R, refOps_expands x, ?_, h⟩
    intro op hop
    unfold refOps shortOps at hop
    rw [if_pos h8, List.append_nil] at hop
    obtain ⟨o, ho⟩ := (refLoop_ok x).forall op hop
    exact ho.2.1
  · obtain ⟨h1, h2⟩ := orefOps_expands h8
    exact ⟨orefOps x, R, h1, h2, h⟩

/-- What success of `optsw842_compress` means. -/
theorem optsw842Compress_ok {e : Endian} {ain aout : Nat} {j : OptJunk} {jsw : CompJunk} {x buf : List Byte}
    {n : Nat} {b : List Byte} (h : optsw842Compress e ain aout j jsw x buf = .ret none n b) :
    x.length % 8 = 0 ∧ (x ≠ [] ∨ ain % 8 ≠ 0 ∨ aout % 8 ≠ 0) ∧
    n = paddedSize (optBits ain aout x).length ∧ n ≤ buf.length ∧ OptLim ain aout n ∧ b.length = buf.length ∧
      bytesBits (b.take n) = optBits ain aout x ++
        List.replicate (8 * n - (optBits ain aout x).length) false := by
  by_cases h8 : x.length % 8 = 0
  swap
  · rw [optsw842Compress_odd _ _ _ _ _ _ _ h8] at h; cases h
  by_cases hne : x ≠ [] ∨ ain % 8 ≠ 0 ∨ aout % 8 ≠ 0
  swap
  · obtain rfl : x = [] := by by_contra hx; exact hne (.inl hx)
    rw [optsw842Compress_nil _ _ _ _ _ _ (by omega)] at h; cases h
  obtain ⟨b', hl, hr⟩ := optsw842Compress_eq e ain aout j jsw x buf h8 hne
  rcases hr with ⟨h1, h2, h3, h4⟩ | ⟨-, h3⟩
  · rw [h] at h3
    cases h3
    exact ⟨h8, hne, rfl, h1, h2, hl, h4⟩
  · rw [h] at h3; cases h3

theorem words_of_mod {inp : List Byte} (h : inp.length % 8 = 0) : ODecomp.words inp = inp := by
  unfold ODecomp.words
  exact List.take_of_length_le (by omega)

theorem words_prefix (inp : List Byte) : ∃ R, bytesBits inp = bytesBits (ODecomp.words inp) ++ R := by
  refine ⟨bytesBits (inp.drop (8 * (inp.length / 8))), ?_⟩
  unfold ODecomp.words
  rw [← bytesBits_append, List.take_append_drop]

theorem _root_.Lib842.Spec.HwDecodes.decodes {inp d : List Byte} (h : HwDecodes inp d) : Decodes inp d := by
  obtain ⟨ops, R, h1, -, h3⟩ := h
  exact ⟨ops, R, h1, h3⟩

theorem _root_.Lib842.Spec.HwDecodes.of_words {inp d : List Byte} (h : HwDecodes (ODecomp.words inp) d) : HwDecodes inp d := by
  obtain ⟨ops, R, h1, h2, h3⟩ := h
  obtain ⟨R', hR⟩ := words_prefix inp
  exact ⟨ops, R ++ R', h1, h2, by rw [hR, h3]; simp only [List.append_assoc]⟩

theorem hwDecodes_unique {inp d d' : List Byte} (h : HwDecodes inp d) (h' : HwDecodes inp d') : d = d' :=
  decodes_unique h.decodes h'.decodes

theorem optDecompress_sw {e : Endian} {ain aout : Nat} (inp buf : List Byte)
    (hal : ain % 8 ≠ 0 ∨ aout % 8 ≠ 0) :
    optsw842Decompress e ain aout inp buf = sw842Decompress e aout inp buf := by
  unfold optsw842Decompress optsw842DecompressF
  rw [if_pos hal]; rfl

theorem optDecompress_res (e : Endian) {ain aout : Nat} (hal : ain % 8 = 0 ∧ aout % 8 = 0) (inp buf : List Byte) :
    OptRes inp buf (optsw842Decompress e ain aout inp buf) :=
  optDecompF_res e ain aout _ hal inp buf (sw842Decompress_fuel inp)

theorem optDecompress_of (e : Endian) {ain aout : Nat} (hal : ain % 8 = 0 ∧ aout % 8 = 0) (inp buf : List Byte)
    {ops : List Op} {data : List Byte} (hexp : Expands ops data) (hsh : ∀ op ∈ ops, op.isShort = false)
    {c : BitVec 32} {R : List Bool}
    (hin : bytesBits (ODecomp.words inp) =
      ops.flatMap Op.bits ++ (bitsOf 5 0x1e ++ (bitsOf 32 c.toNat ++ R))) :
    ∃ b, b.length = buf.length ∧ (data.length ≤ buf.length → b.take data.length = data) ∧
      optsw842Decompress e ain aout inp buf =
        if buf.length < data.length then .ret (some .ENOSPC) 0 b
        else if c ≠ crc data then .ret (some .EINVAL) 0 b
        else .ret none data.length b :=
  optDecompF_of e ain aout _ hal inp buf (sw842Decompress_fuel inp) hexp hsh hin

theorem optDecompress_decodes (e : Endian) {ain aout : Nat} (hal : ain % 8 = 0 ∧ aout % 8 = 0)
    (inp buf : List Byte) {data : List Byte} (h : HwDecodes (ODecomp.words inp) data) :
    ∃ b, b.length = buf.length ∧ (data.length ≤ buf.length → b.take data.length = data) ∧
      optsw842Decompress e ain aout inp buf =
        if buf.length < data.length then .ret (some .ENOSPC) 0 b else .ret none data.length b := by
  obtain ⟨ops, R, hexp, hsh, hin⟩ := h
  obtain ⟨b, h1, h2, h3⟩ := optDecompress_of e hal inp buf hexp hsh (c := crc data) (R := R)
    (by rw [hin, trailer]; simp only [List.append_assoc])
  refine ⟨b, h1, h2, ?_⟩
  rw [h3]
  simp

theorem optDecompress_ok {e : Endian} {ain aout : Nat} (hal : ain % 8 = 0 ∧ aout % 8 = 0)
    {inp buf : List Byte} {n : Nat} {b : List Byte}
    (h : optsw842Decompress e ain aout inp buf = .ret none n b) :
    HwDecodes (ODecomp.words inp) (b.take n) ∧ (b.take n).length = n ∧ n ≤ buf.length ∧
      b.length = buf.length := by
  have hr := optDecompress_res e hal inp buf
  rw [h] at hr
  cases hr with
  | ok hd hl hb ht => rw [ht]; exact ⟨hd, rfl, hl, hb⟩

/-- Decompression of a complete hardware stream, for every alignment. -/
theorem optDecompress_hw (e : Endian) {ain aout : Nat} (inp buf : List Byte) {data : List Byte}
    (h8 : inp.length % 8 = 0) (h : HwDecodes inp data) (hcap : data.length ≤ buf.length)
    (hlim : OptLim ain aout data.length) :
    ∃ b, optsw842Decompress e ain aout inp buf = .ret none data.length b ∧ b.take data.length = data ∧
      b.length = buf.length := by
  by_cases hal : ain % 8 ≠ 0 ∨ aout % 8 ≠ 0
  · rw [optDecompress_sw inp buf hal]
    obtain ⟨b, h1, h2, h3⟩ := sw842Decompress_decodes e aout inp buf h.decodes
    have : data.length ≤ 0xffffffff := by
      rcases hlim with h | h
      · omega
      · exact h
    rw [if_neg (by omega), if_neg (by omega)] at h3
    exact ⟨b, h3, h2 hcap, h1⟩
  · rw [← words_of_mod h8] at h
    obtain ⟨b, h1, h2, h3⟩ := optDecompress_decodes e (ain := ain) (aout := aout) (by omega) inp buf h
    rw [if_neg (by omega)] at h3
    exact ⟨b, h3, h2 hcap, h1⟩

end Lib842
