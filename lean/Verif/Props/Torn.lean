import Verif.Proofs.Torn
import Verif.Proofs.Cut
import Verif.Props.ErrCodes
import Verif.Props.Ocl
import Verif.Props.Opt
/-!
# Streams that were written only in part (C92)

A file that was being written when the machine stopped ends too early, or goes on with zeros; on erased flash memory it goes on with 0xff.
`c.take k ++ List.replicate m f` is such a stream: the first `k` bytes of the stream `c`, then `m` bytes `f`, which is 0x00 or 0xff.
-/

namespace Lib842.Props
open Spec

/-- C92 for any stream of the format: the serial decompressor does not return wrong data. -/
theorem C92_sw_never_wrong (e : Endian) (addr : Nat) (c x buf : List Byte) (hc : Decodes c x) (k m : Nat) (f : Byte)
    (hf : f = 0x00 ∨ f = 0xff) (n : Nat) (b : List Byte)
    (h : sw842Decompress e addr (c.take k ++ List.replicate m f) buf = .ret none n b) : b.take n = x ∧ n = x.length := by
  obtain ⟨h1, h2, -⟩ := sw842Decompress_ok h
  obtain ⟨ops, R, hx, hb⟩ := hc
  obtain ⟨ops', R', hx', hb'⟩ := h1
  obtain ⟨P, T, v, q1, q2, -⟩ := bytesBits_torn (c := c) (k := k) (m := m) hf
  rw [q1, trailer, List.append_assoc, List.append_assoc] at hb
  rw [q2, trailer, List.append_assoc, List.append_assoc] at hb'
  obtain rfl := torn_ops hx.1 hx'.1 hb hb'
  have hd := expands_det hx' hx
  exact ⟨hd, by rw [← hd, h2]⟩

/-- C92 for the optimised decompressor. -/
theorem C92_opt_never_wrong (e : Endian) (ain aout : Nat) (c x buf : List Byte) (hc : Decodes c x) (k m : Nat) (f : Byte)
    (hf : f = 0x00 ∨ f = 0xff) (n : Nat) (b : List Byte)
    (h : optsw842Decompress e ain aout (c.take k ++ List.replicate m f) buf = .ret none n b) : b.take n = x ∧ n = x.length := by
  by_cases hal : ain % 8 ≠ 0 ∨ aout % 8 ≠ 0
  · rw [optDecompress_sw _ _ hal] at h
    exact C92_sw_never_wrong e aout c x buf hc k m f hf n b h
  obtain ⟨h1, h2, -⟩ := optDecompress_ok (by omega) h
  obtain ⟨ops, R, hx, hb⟩ := hc
  obtain ⟨ops', R', hx', hb'⟩ := h1.of_words.decodes
  obtain ⟨P, T, v, q1, q2, -⟩ := bytesBits_torn (c := c) (k := k) (m := m) hf
  rw [q1, trailer, List.append_assoc, List.append_assoc] at hb
  rw [q2, trailer, List.append_assoc, List.append_assoc] at hb'
  obtain rfl := torn_ops hx.1 hx'.1 hb hb'
  have hd := expands_det hx' hx
  exact ⟨hd, by rw [← hd, h2]⟩

/-- C92 for the OpenCL decoder, although it does not look at the CRC. -/
theorem C92_ocl_never_wrong (e : Endian) (c x buf : List Byte) (hc : Decodes c x) (k m : Nat) (f : Byte) (hf : f = 0x00 ∨ f = 0xff)
    (olen n : Nat) (b : List Byte) (hout : olen ≤ buf.length) (h8 : (c.take k ++ List.replicate m f).length % 8 = 0)
    (h : oclCore e (some (c.take k ++ List.replicate m f)) 0 (c.take k ++ List.replicate m f).length buf olen = .ret none n b) :
    b.take n = x ∧ n = x.length := by
  obtain ⟨-, h2, -, -, ops', crc, rest, hx', -, hb'⟩ := C43_ocl_success_is_decoding e _ buf _ olen n b h8 (Nat.le_refl _) hout h
  rw [List.take_length] at hb'
  obtain ⟨ops, R, hx, hb⟩ := hc
  obtain ⟨P, T, v, q1, q2, -⟩ := bytesBits_torn (c := c) (k := k) (m := m) hf
  rw [q1, trailer, List.append_assoc, List.append_assoc] at hb
  rw [q2] at hb'
  obtain rfl := torn_ops hx.1 hx'.1 hb hb'
  have hd := expands_det hx' hx
  exact ⟨hd, by rw [← hd, h2]⟩

/-- C92: what is left of the output of `sw842_compress` is safe to decompress, and it is reported as an error (not as a lack of space, if the
buffer is large enough for any stream of this length), or the data is complete. -/
theorem C92_sw_torn (e e' : Endian) (addr addr' : Nat) (j : CompJunk) (x buf buf' : List Byte) (n : Nat) (b : List Byte)
    (hc : sw842Compress e addr j x buf = .ret none n b) (k m : Nat) (f : Byte) (hf : f = 0x00 ∨ f = 0xff) :
    (∃ b', sw842Decompress e' addr' ((b.take n).take k ++ List.replicate m f) buf' = .ret none x.length b' ∧ b'.take x.length = x) ∨
    ∃ er n' b', sw842Decompress e' addr' ((b.take n).take k ++ List.replicate m f) buf' = .ret (some er) n' b' ∧
      (er = .EINVAL ∨ er = .EOVERFLOW ∨
        (er = .ENOSPC ∧ (11 * buf'.length < 4096 * (min k n + m) ∨ x.length > 0xffffffff))) := by
  obtain ⟨hn, hle, -, hl, hb⟩ := sw842Compress_ok hc
  have hlen : ((b.take n).take k ++ List.replicate m f).length = min k n + m := by
    rw [List.length_append, List.length_take, List.length_take, List.length_replicate, Nat.min_eq_left (show n ≤ b.length by omega)]
  have hdec : Decodes (b.take n) x := streamBits_decodes hb
  have hr := sw842Decompress_res e' addr' ((b.take n).take k ++ List.replicate m f) buf'
  cases hx : sw842Decompress e' addr' ((b.take n).take k ++ List.replicate m f) buf' with
  | timeout => rw [hx] at hr; cases hr
  | ub =>
    exfalso
    rw [C05_sw_decompress_memory_safe_partial] at hx
    obtain ⟨ops', out, r, R, he, hb', -, h1, h2, -⟩ := hx
    obtain ⟨P, T, v, q1, q2, -⟩ := bytesBits_torn (c := b.take n) (k := k) (m := m) hf
    rw [q1, streamBits, trailer, List.append_assoc, List.append_assoc] at hb
    rw [q2] at hb'
    obtain ⟨op, more, hm⟩ := torn_rep (refOps_expands x).1 he.1 hb hb'
    have hsh : ∀ op ∈ ops', op.isShort = false := by
      intro o ho
      unfold refOps shortOps at hm
      split at hm
      · rw [List.append_nil] at hm
        obtain ⟨_, h⟩ := (refLoop_ok x).forall o (by rw [hm]; exact List.mem_append_left _ ho)
        exact h.2.1
      · have hd := congrArg List.dropLast hm
        rw [List.dropLast_concat, List.dropLast_append_of_ne_nil (by simp)] at hd
        obtain ⟨_, h⟩ := (refLoop_ok x).forall o (by rw [hd]; exact List.mem_append_left _ ho)
        exact h.2.1
    have := run_mod8 he.1 hsh he.2
    simp only [List.length_nil] at this
    omega
  | ret rc n' b' =>
    cases rc with
    | none =>
      obtain ⟨h1, h2⟩ := C92_sw_never_wrong e' addr' _ x buf' hdec k m f hf n' b' hx
      exact .inl ⟨b', by rw [← h2], by rw [← h2]; exact h1⟩
    | some er =>
      refine .inr ⟨er, n', b', rfl, ?_⟩
      rcases C73_sw e' addr' _ buf' er n' b' hx with ⟨h | h, -⟩ | ⟨h, h'⟩
      · exact .inl h
      · exact .inr (.inl h)
      · rw [hlen] at h'
        refine .inr (.inr ⟨h, h'.imp_right ?_⟩)
        rintro ⟨d, hd, hgt⟩
        obtain ⟨ops, R, hx1, hb1⟩ := hdec
        obtain ⟨ops', R', hx', hb'⟩ := hd
        obtain ⟨P, T, v, q1, q2, -⟩ := bytesBits_torn (c := b.take n) (k := k) (m := m) hf
        rw [q1, trailer, List.append_assoc, List.append_assoc] at hb1
        rw [q2, trailer, List.append_assoc, List.append_assoc] at hb'
        obtain rfl := torn_ops hx1.1 hx'.1 hb1 hb'
        rw [← expands_det hx' hx1]
        exact hgt

/-- C92: the serial decompressor accepts the first `k` bytes of a stream if and only if they contain the CRC. -/
theorem C92_sw_truncated_exact (e : Endian) (addr : Nat) (c x buf : List Byte) (ops : List Op) (R : List Bool) (hx : Expands ops x)
    (hb : bytesBits c = ops.flatMap Op.bits ++ trailer x ++ R) (hcap : x.length ≤ buf.length) (hmax : x.length ≤ 0xffffffff) (k : Nat)
    (hk : k ≤ c.length) :
    (∃ n b, sw842Decompress e addr (c.take k) buf = .ret none n b) ↔ (ops.flatMap Op.bits ++ trailer x).length ≤ 8 * k := by
  have hp : bytesBits (c.take k) = (bytesBits c).take (8 * k) := by
    have : bytesBits c = bytesBits (c.take k) ++ bytesBits (c.drop k) := by rw [← bytesBits_append, List.take_append_drop]
    rw [this]
    exact (List.take_left' (by rw [length_bytesBits, List.length_take]; omega)).symm
  constructor
  · rintro ⟨n, b, h⟩
    obtain ⟨⟨ops', R', hx', hb'⟩, -⟩ := sw842Decompress_ok h
    have hdec : Decodes (c.take k ++ c.drop k) (b.take n) :=
      ⟨ops', R' ++ bytesBits (c.drop k), hx', by rw [bytesBits_append, hb']; simp only [List.append_assoc]⟩
    rw [List.take_append_drop] at hdec
    obtain ⟨ops'', R'', hx'', hb''⟩ := hdec
    have hc : bytesBits c = ops'.flatMap Op.bits ++ trailer (b.take n) ++ (R' ++ bytesBits (c.drop k)) := by
      rw [← List.append_assoc, ← hb', ← bytesBits_append, List.take_append_drop]
    rw [hb] at hc
    obtain ⟨rfl, -⟩ := ops_unique hx hx' hc
    rw [expands_det hx hx']
    have := congrArg List.length hb'
    rw [length_bytesBits, List.length_take, List.length_append] at this
    omega
  · intro hle
    have hdec : Decodes (c.take k) x := by
      refine ⟨ops, R.take (8 * k - (ops.flatMap Op.bits ++ trailer x).length), hx, ?_⟩
      rw [hp, hb, List.take_append, List.take_of_length_le hle]
    obtain ⟨b', -, -, h'⟩ := sw842Decompress_decodes e addr _ buf hdec
    rw [if_neg (by omega), if_neg (by omega)] at h'
    exact ⟨_, b', h'⟩

/-- C92: the serial decompressor reports `-EOVERFLOW`, and no other error, for the first `k` bytes of a stream if they do not contain all of the CRC
and the buffer is large enough for the data. -/
theorem C92_sw_truncated_code (e : Endian) (addr : Nat) (c x buf : List Byte) (ops : List Op) (R : List Bool) (hx : Expands ops x)
    (hb : bytesBits c = ops.flatMap Op.bits ++ trailer x ++ R) (hcap : x.length ≤ buf.length) (hmax : x.length ≤ 0xffffffff) (k : Nat)
    (hk : 8 * k < (ops.flatMap Op.bits ++ trailer x).length) :
    ∃ b, sw842Decompress e addr (c.take k) buf = .ret (some .EOVERFLOW) 0 b := by
  have hkc : k ≤ c.length := by
    have := congrArg List.length hb
    rw [length_bytesBits, List.length_append] at this
    omega
  obtain ⟨b', -, -, h'⟩ := sw842Decompress_decodes e addr _ buf ⟨ops, R, hx, hb⟩
  rw [if_neg (by omega), if_neg (by omega)] at h'
  rcases sw_cut e addr c buf k _ _ h' with h | h
  · have := (C92_sw_truncated_exact e addr c x buf ops R hx hb hcap hmax k hkc).mp ⟨_, _, h⟩
    omega
  · exact h

/-- C92: the optimised decompressor (aligned buffers) reports every stream of the compressors that is too short, be it by a single byte. -/
theorem C92_opt_truncated (e e' : Endian) (ain aout ain' aout' : Nat) (hal : ain' % 8 = 0 ∧ aout' % 8 = 0) (j : OptJunk) (jsw : CompJunk)
    (x buf buf' : List Byte) (n : Nat) (b : List Byte)
    (hc : optsw842Compress e ain aout j jsw x buf = .ret none n b ∨ sw842Compress e aout jsw x buf = .ret none n b) (k : Nat) (hk : k < n) :
    ∃ er n' b', optsw842Decompress e' ain' aout' ((b.take n).take k) buf' = .ret (some er) n' b' ∧
      (er = .EINVAL ∨ (er = .ENOSPC ∧ 11 * buf'.length < 4096 * k)) := by
  have hbits : ∃ ops R, Expands ops x ∧ bytesBits (b.take n) = ops.flatMap Op.bits ++ trailer x ++ R ∧
      n = paddedSize (ops.flatMap Op.bits ++ trailer x).length ∧ n ≤ b.length := by
    rcases hc with hc | hc
    · obtain ⟨h8, -, h1, h2, -, h3, h4⟩ := optsw842Compress_ok hc
      have hops : ∃ ops, Expands ops x ∧ optBits ain aout x = ops.flatMap Op.bits ++ trailer x := by
        unfold optBits
        split
        · exact ⟨refOps x, refOps_expands x, rfl⟩
        · exact ⟨orefOps x, (orefOps_expands h8).1, rfl⟩
      obtain ⟨ops, hx, hb⟩ := hops
      exact ⟨ops, _, hx, by rw [h4, hb], by rw [h1, hb], by omega⟩
    · obtain ⟨h1, h2, -, h3, h4⟩ := sw842Compress_ok hc
      exact ⟨refOps x, _, refOps_expands x, h4, h1, by omega⟩
  obtain ⟨ops, R, hx, hb, hn, hlb⟩ := hbits
  have hlen : ((b.take n).take k).length = k := by rw [List.length_take, List.length_take]; omega
  have hr := optDecompress_res e' hal ((b.take n).take k) buf'
  cases hy : optsw842Decompress e' ain' aout' ((b.take n).take k) buf' with
  | timeout => rw [hy] at hr; cases hr
  | ub => rw [hy] at hr; cases hr
  | ret rc n' b' =>
    cases rc with
    | some er =>
      refine ⟨er, n', b', rfl, ?_⟩
      rcases C73_opt e' ain' aout' hal _ buf' er n' b' hy with ⟨h, -⟩ | ⟨h, h'⟩
      · exact .inl h
      · rw [hlen] at h'; exact .inr ⟨h, h'⟩
    | none =>
      exfalso
      obtain ⟨h1, -⟩ := optDecompress_ok hal hy
      have hw := h1.decodes
      obtain ⟨ops', R', hx', hb'⟩ := hw
      obtain ⟨S, hS⟩ := words_prefix ((b.take n).take k)
      have hcc : bytesBits (b.take n) = ops'.flatMap Op.bits ++ trailer (b'.take n') ++ (R' ++ (S ++ bytesBits ((b.take n).drop k))) := by
        have : bytesBits (b.take n) = bytesBits ((b.take n).take k) ++ bytesBits ((b.take n).drop k) := by
          rw [← bytesBits_append, List.take_append_drop]
        rw [this, hS, hb']
        simp only [List.append_assoc]
      rw [hb] at hcc
      obtain ⟨rfl, -⟩ := ops_unique hx hx' hcc
      rw [expands_det hx hx'] at hn
      have := congrArg List.length hb'
      rw [length_bytesBits, List.length_append] at this
      have hwl : (ODecomp.words ((b.take n).take k)).length = 8 * (k / 8) := by
        unfold ODecomp.words
        rw [List.length_take, hlen]
        omega
      rw [hwl] at this
      unfold paddedSize at hn
      omega

/-- Both outcomes occur: without the padding the data is complete; one byte less and it is reported, also if zeros take its place. -/
example : sw842Decompress .little 0 (exOut.take 19) (List.replicate 20 0xaa) = .ret none 19 (exIn ++ [0xaa]) ∧
    (view (sw842Decompress .little 0 (exOut.take 18) (List.replicate 20 0xaa))).map (·.1) = some (some .EOVERFLOW) ∧
    (view (sw842Decompress .little 0 (exOut.take 18 ++ List.replicate 6 0) (List.replicate 20 0xaa))).map (·.1) = some (some .EINVAL) := by
  decide +kernel

/-- Erased memory behind a stream can look like a long repetition: with a small buffer a lack of space is reported. -/
example : (view (sw842Decompress .little 0 (exOut.take 9 ++ List.replicate 15 0xff) (List.replicate 64 0xaa))).map (·.1) =
    some (some .ENOSPC) := by decide +kernel

/-- The optimised decompressor rejects the same stream without its last byte, which is padding. -/
example : (view (optsw842Decompress .little 0 0 (exOut8.take 23) (List.replicate 64 0xaa))).map (·.1) = some (some .EINVAL) ∧
    (view (optsw842Decompress .little 0 0 (exOut8.take 24) (List.replicate 64 0xaa))).map (·.1) = some none := by
  decide +kernel

end Lib842.Props
