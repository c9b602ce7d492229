import Verif.Proofs.Prefix
import Verif.Props.Ocl
import Verif.Props.Opt
import Verif.Props.Sw
/-!
# Damage in a stream does not affect the data in front of it (C94)

`c'` is what is left of a stream `c`: its first `k` bytes are those of `c`; what comes after them may be anything, or be missing.
-/

namespace Lib842.Props
open Spec

/-- C94 for any stream of the format: the data of all ops within the first `k` bytes is in the output buffer, whatever the result of the call. -/
theorem C94_sw (e : Endian) (addr : Nat) (c c' x buf : List Byte) (pre post : List Op) (o : List Byte) (R : List Bool)
    (hx : Expands (pre ++ post) x) (hb : bytesBits c = (pre ++ post).flatMap Op.bits ++ trailer x ++ R) (ho : Expands pre o)
    (k : Nat) (hk : k ≤ c.length) (heq : c'.take k = c.take k) (hpre : (pre.flatMap Op.bits).length ≤ 8 * k)
    (hcap : o.length ≤ buf.length) (rc : Option Errno) (n : Nat) (b : List Byte) (h : sw842Decompress e addr c' buf = .ret rc n b) :
    b.take o.length = x.take o.length := by
  rw [List.flatMap_append, List.append_assoc, List.append_assoc] at hb
  obtain ⟨S, hS⟩ := bits_within heq hk hb (Nat.le_refl _) hpre (max k c'.length) (Nat.le_max_left ..)
  rw [List.take_of_length_le (Nat.le_max_right ..)] at hS
  rw [sw_prefix e addr c' buf ho hS hcap h]
  obtain ⟨o', h1, h2⟩ := run_split hx.2
  rw [Run.det ho.1 ho.2 h1]
  exact List.prefix_iff_eq_take.1 (Run.prefix_of h2)

/-- C94 in terms of bytes: of the output of `sw842_compress`, with only its first `k` bytes intact, `sw842_decompress` recovers at least the
first `8 * (8 * k / 69)` bytes of the data (an op has at most 69 bits and stands for 8 bytes or more). -/
theorem C94_sw_recover (e e' : Endian) (addr addr' : Nat) (j : CompJunk) (x buf buf' : List Byte) (n : Nat) (b : List Byte)
    (hc : sw842Compress e addr j x buf = .ret none n b) (c' : List Byte) (k : Nat) (hk : k ≤ n) (heq : c'.take k = (b.take n).take k)
    (hcap : x.length ≤ buf'.length) (rc : Option Errno) (n' : Nat) (b' : List Byte)
    (h : sw842Decompress e' addr' c' buf' = .ret rc n' b') (m : Nat) (hm : m ≤ 8 * (8 * k / 69)) : b'.take (min x.length m) = x.take m := by
  obtain ⟨-, h2, -, h3, h4⟩ := sw842Compress_ok hc
  have hs : ∀ op ∈ (refOps x).dropLast, op.isShort = false := by
    have hl : ∀ op ∈ refLoop x (x.length / 8) .init 0 none 0, op.isShort = false := fun op h => by
      obtain ⟨_, h'⟩ := (refLoop_ok x).forall op h
      exact h'.2.1
    unfold refOps shortOps
    split
    · rw [List.append_nil]
      exact fun op h => hl op (List.dropLast_subset _ h)
    · rw [List.dropLast_concat]
      exact hl
  obtain ⟨pre, post, o, he, hle, ho, -, hmin, hpx⟩ := ops_within (refOps_expands x) hs (8 * k)
  have hol : o.length ≤ x.length := by rw [← hpx, List.length_take]; omega
  rw [streamBits] at h4
  have := C94_sw e' addr' (b.take n) c' x buf' pre post o _ (by rw [← he]; exact refOps_expands x) (by rw [← he]; exact h4) ho k
    (by rw [List.length_take]; omega) heq hle (by omega) rc n' b' h
  have := congrArg (List.take (min x.length m)) this
  rw [List.take_take, List.take_take, Nat.min_eq_left (by omega)] at this
  rw [this]
  exact List.take_eq_take_iff.2 (by omega)

/-- C94 for the optimised decompressor (aligned buffers), which reads whole words: `k / 8` of them are intact. -/
theorem C94_opt_recover (e : Endian) (ain aout : Nat) (hal : ain % 8 = 0 ∧ aout % 8 = 0) (c c' x buf : List Byte) (hc : HwDecodes c x)
    (k : Nat) (hk : k ≤ c.length) (heq : c'.take k = c.take k) (hcap : x.length ≤ buf.length) (rc : Option Errno) (n : Nat) (b : List Byte)
    (h : optsw842Decompress e ain aout c' buf = .ret rc n b) (m : Nat) (hm : m ≤ 8 * (64 * (k / 8) / 69)) :
    b.take (min x.length m) = x.take m := by
  obtain ⟨ops, R, hx, hs, hb⟩ := hc
  have hkl : k ≤ c'.length := by
    have := congrArg List.length heq
    rw [List.length_take, List.length_take] at this
    omega
  obtain ⟨pre, post, o, he, hle, ho, hmem, hmin, hpx⟩ := ops_within hx (fun op h => hs op (List.dropLast_subset _ h)) (64 * (k / 8))
  have hol : o.length ≤ x.length := by rw [← hpx, List.length_take]; omega
  rw [he, List.flatMap_append, List.append_assoc, List.append_assoc] at hb
  obtain ⟨S, hS⟩ := bits_within (L := 8 * (k / 8)) heq hk hb (by omega) (by omega) (8 * (c'.length / 8)) (by omega)
  have hw := opt_prefix e ain aout hal c' buf ho (fun op h => hs op (hmem op h)) (R := S) hS (by omega) h
  rw [← hpx] at hw
  rw [List.length_take, Nat.min_eq_left hol] at hw
  have := congrArg (List.take (min x.length m)) hw
  rw [List.take_take, List.take_take, Nat.min_eq_left (by omega)] at this
  rw [this]
  exact List.take_eq_take_iff.2 (by omega)

/-- C94 for the OpenCL decoder. -/
theorem C94_ocl_recover (e : Endian) (c c' x buf : List Byte) (hc : HwDecodes c x) (k : Nat) (hk : k ≤ c.length) (heq : c'.take k = c.take k)
    (h8 : c'.length % 8 = 0) (olen : Nat) (hcap : x.length ≤ olen) (hout : olen ≤ buf.length) (rc : Option Errno) (n : Nat) (b : List Byte)
    (h : oclCore e (some c') 0 c'.length buf olen = .ret rc n b) (m : Nat) (hm : m ≤ 8 * (64 * (k / 8) / 69)) :
    b.take (min x.length m) = x.take m := by
  obtain ⟨ops, R, hx, hs, hb⟩ := hc
  have hkl : k ≤ c'.length := by
    have := congrArg List.length heq
    rw [List.length_take, List.length_take] at this
    omega
  obtain ⟨pre, post, o, he, hle, ho, hmem, hmin, hpx⟩ := ops_within hx (fun op h => hs op (List.dropLast_subset _ h)) (64 * (k / 8))
  have hol : o.length ≤ x.length := by rw [← hpx, List.length_take]; omega
  rw [he, List.flatMap_append, List.append_assoc, List.append_assoc] at hb
  obtain ⟨S, hS⟩ := bits_within (L := 8 * (k / 8)) heq hk hb (by omega) (by omega) (8 * (c'.length / 8)) (by omega)
  have hw := ocl_prefix e c' 0 c'.length buf olen (by omega) ho (fun op h => hs op (hmem op h)) (R := S)
    (by rw [Nat.mul_zero, List.drop_zero]; exact hS) (by omega) (by omega) h
  rw [← hpx] at hw
  rw [List.length_take, Nat.min_eq_left hol] at hw
  have := congrArg (List.take (min x.length m)) hw
  rw [List.take_take, List.take_take, Nat.min_eq_left (by omega)] at this
  rw [this]
  exact List.take_eq_take_iff.2 (by omega)

/-- The output of both compressors is of this kind, for data of whole groups: of what they wrote, the optimised decompressor recovers everything
but the part that stands for the damaged words. -/
theorem C94_opt_recover_output (e e' : Endian) (ain aout ain' aout' : Nat) (hal : ain' % 8 = 0 ∧ aout' % 8 = 0) (j : OptJunk) (jsw : CompJunk)
    (x buf buf' : List Byte) (n : Nat) (b : List Byte) (hx8 : x.length % 8 = 0)
    (hc : optsw842Compress e ain aout j jsw x buf = .ret none n b ∨ sw842Compress e aout jsw x buf = .ret none n b)
    (c' : List Byte) (k : Nat) (hk : k ≤ n) (heq : c'.take k = (b.take n).take k)
    (hcap : x.length ≤ buf'.length) (rc : Option Errno) (n' : Nat) (b' : List Byte)
    (h : optsw842Decompress e' ain' aout' c' buf' = .ret rc n' b') (m : Nat) (hm : m ≤ 8 * (64 * (k / 8) / 69)) :
    b'.take (min x.length m) = x.take m := by
  have hw : HwDecodes (b.take n) x ∧ n ≤ b.length := by
    rcases hc with hc | hc
    · obtain ⟨-, -, -, h2, -, h3, -⟩ := optsw842Compress_ok hc
      exact ⟨(C26_opt_hw_compatible e ain aout j jsw x buf n b hc).2, by omega⟩
    · obtain ⟨-, h2, -, h3, -⟩ := sw842Compress_ok hc
      exact ⟨C26_sw_hw_compatible e aout jsw x buf n b hc hx8, by omega⟩
  exact C94_opt_recover e' ain' aout' hal (b.take n) c' x buf' hw.1 k (by rw [List.length_take]; omega) heq hcap rc n' b' h m hm

/-- A stream of 24 bytes whose last 16 bytes are damaged (data: 32 bytes, without them not even one op is certain to be complete): it is rejected;
with only its last 8 bytes damaged, 8 bytes are guaranteed. -/
example : 8 * (64 * (8 / 8) / 69) = 0 ∧ 8 * (8 * 16 / 69) = 8 ∧ 8 * (64 * (16 / 8) / 69) = 8 ∧
    (exOut8.take 16 ++ List.replicate 8 0x55).take 16 = exOut8.take 16 ∧
    (∃ b, sw842Decompress .little 0 (exOut8.take 16 ++ List.replicate 8 0x55) (List.replicate 40 0xaa) = .ret (some .EINVAL) 0 b ∧
      b.take 8 = exIn8.take 8 ∧ b ≠ List.replicate 40 0xaa) ∧
    ∃ b, optsw842Decompress .little 0 0 (exOut8.take 16 ++ List.replicate 8 0x55) (List.replicate 40 0xaa) = .ret (some .EINVAL) 0 b ∧
      b.take 8 = exIn8.take 8 :=
  ⟨by decide, by decide, by decide, by decide, ⟨exIn8 ++ List.replicate 8 0xaa, by decide +kernel, by decide, by decide⟩,
    ⟨exIn8 ++ List.replicate 8 0xaa, by decide +kernel, by decide⟩⟩

/-- The stream is one of the hardware format, as `C94_opt_recover` and `C94_ocl_recover` require. -/
example : HwDecodes exOut8 exIn8 := by
  have h : ∃ b, optsw842Compress .little 0 0 ojunk0 junk0 exIn8 (List.replicate 40 0) = .ret none 24 (exOut8 ++ b) :=
    ⟨List.replicate 16 0, by decide +kernel⟩
  obtain ⟨b, h⟩ := h
  have := (C26_opt_hw_compatible _ _ _ _ _ _ _ _ _ h).2
  rwa [List.take_left' (by decide)] at this

end Lib842.Props
