import Verif.Proofs.SwEndian
/-!
# Property theorems for the serial codec (`sw842_compress`, `sw842_decompress`)

The statements only use the entry points of the model (`sw842Compress`,
`sw842Decompress`), the result type `Call` and the format specification in
`Verif/Spec.lean`.  `inp`/`x` is exactly the `ilen` input bytes, `buf` the prior
contents of the `*olen` bytes of output space.  The outcome `.ub` is produced by the
model for every out-of-bounds access.
-/

namespace Lib842.Props
open Spec

/-! ## Concrete data used to show that hypotheses can be met -/

def junk0 : CompJunk := ⟨fun _ => 7, fun _ => 7, fun _ => 7, fun _ => 3, fun _ => 3, fun _ => 3⟩
def junk1 : CompJunk := ⟨fun _ => 0, fun _ => 1, fun _ => 2, fun _ => -1, fun _ => 9, fun _ => 4⟩

/-- `ABCDEFGHABCDEFGHABC` -/
def exIn : List Byte := (List.range 19).map fun i => BitVec.ofNat 8 (i % 8 + 65)

/-- Its compressed form: `D8 "ABCDEFGH"`, `repeat 1`, `short "ABC"`, end, CRC, padding. -/
def exOut : List Byte :=
  [0x02, 0x0a, 0x12, 0x1a, 0x22, 0x2a, 0x32, 0x3a, 0x46, 0xc0, 0xeb, 0x41, 0x42, 0x43, 0xf0, 0xee, 0xc9,
   0xe7, 0xa0, 0x00, 0x00, 0x00, 0x00, 0x00]

/-- Return code, `*olen` and the first `*olen` bytes of the output of a call. -/
def view : Call → Option (Option Errno × Nat × List Byte)
  | .ret rc n b => some (rc, n, b.take n)
  | _ => none

theorem ex_compress : sw842Compress .little 0 junk0 exIn (List.replicate 24 0xaa) = .ret none 24 exOut := by
  decide +kernel

theorem ex_decompress :
    sw842Decompress .little 0 exOut (List.replicate 20 0xaa) = .ret none 19 (exIn ++ [0xaa]) := by
  decide +kernel

/-! ## C01 -/

/-- C01: what `sw842_compress` produces for an input of at most `UINT_MAX` bytes is
restored by `sw842_decompress`, whatever the byte orders, addresses, workspace
contents and prior contents of the output buffers. -/
theorem C01_sw_round_trip (e e' : Endian) (addr addr' : Nat) (j : CompJunk) (x buf buf' : List Byte)
    (n : Nat) (b : List Byte) (hx : x.length ≤ 0xffffffff)
    (hc : sw842Compress e addr j x buf = .ret none n b) (hcap : x.length ≤ buf'.length) :
    ∃ b', sw842Decompress e' addr' (b.take n) buf' = .ret none x.length b' ∧
      b'.take x.length = x ∧ b'.length = buf'.length := by
  obtain ⟨-, -, -, -, hb⟩ := sw842Compress_ok hc
  obtain ⟨b', h1, h2, h3⟩ := sw842Decompress_decodes e' addr' (b.take n) buf' (streamBits_decodes hb)
  refine ⟨b', ?_, h2 hcap, h1⟩
  rw [h3, if_neg (by omega), if_neg (by omega)]

example : exIn.length ≤ 0xffffffff ∧
    sw842Compress .little 0 junk0 exIn (List.replicate 24 0xaa) = .ret none 24 exOut ∧
    exIn.length ≤ (List.replicate 20 (0xaa : Byte)).length :=
  ⟨by decide, ex_compress, by decide⟩

/-! ## C04 (serial part) -/

/-- C04 for `sw842_compress`: no out-of-bounds access and no unbounded loop, and the
output buffer keeps its size, for every input and capacity. -/
theorem C04_sw_compress_in_bounds (e : Endian) (addr : Nat) (j : CompJunk) (x buf : List Byte) :
    sw842Compress e addr j x buf ≠ .ub ∧ sw842Compress e addr j x buf ≠ .timeout ∧
    ∃ rc n b, sw842Compress e addr j x buf = .ret rc n b ∧ b.length = buf.length := by
  obtain ⟨b, hl, hr⟩ := sw842Compress_eq e addr j x buf
  split at hr
  · rw [hr.1]; exact ⟨by simp, by simp, _, _, _, rfl, hl⟩
  · rw [hr]; exact ⟨by simp, by simp, _, _, _, rfl, hl⟩

/-! ## C05 -/

/-- C05 is false: a stream starting with a short-data op followed by a repeat op
makes `sw842_decompress` read before the start of the output buffer
(842_decompress.c 329-344 only rejects a repeat at output position 0). -/
theorem C05_sw_decompress_out_of_bounds :
    sw842Decompress .little 0 [0xe9, 0x41, 0xd8, 0x00] (List.replicate 40 0xaa) = .ub := by
  decide +kernel

/-- The full claim of C05, refuted. -/
theorem C05_sw_decompress_memory_safe_false :
    ¬ ∀ (e : Endian) (addr : Nat) (inp buf : List Byte), sw842Decompress e addr inp buf ≠ .ub :=
  fun h => h _ _ _ _ C05_sw_decompress_out_of_bounds

/-- C05, what does hold: `sw842_decompress` accesses memory out of bounds exactly
when, after a well-formed prefix that has produced between 1 and 7 bytes, a repeat op
follows for which there is space.  In particular it never does on a stream in which no
repeat op occurs before 8 bytes were produced.  Missing from the full claim: those
inputs. -/
theorem C05_sw_decompress_memory_safe_partial (e : Endian) (addr : Nat) (inp buf : List Byte) :
    sw842Decompress e addr inp buf = .ub ↔
      ∃ ops out n R, Expands ops out ∧ bytesBits inp = ops.flatMap Op.bits ++ ((Op.rep n).bits ++ R) ∧
        n < 64 ∧ 0 < out.length ∧ out.length < 8 ∧ out.length + 8 * (n + 1) ≤ buf.length := by
  constructor
  · intro h
    have hr := sw842Decompress_res e addr inp buf
    rw [h] at hr
    cases hr with
    | ub hexp hin hub => exact ⟨_, _, _, _, hexp, hin, hub.1, hub.2.1, hub.2.2.1, hub.2.2.2⟩
  · rintro ⟨ops, out, n, R, hexp, hin, h1, h2, h3, h4⟩
    exact swDecompF_ub e addr _ inp buf (sw842Decompress_fuel inp) hexp hin ⟨h1, h2, h3, h4⟩

/-- On every result other than undefined behaviour the buffer keeps its size. -/
theorem C05_sw_decompress_buffer_size (e : Endian) (addr : Nat) (inp buf : List Byte) (rc : Option Errno)
    (n : Nat) (b : List Byte) (h : sw842Decompress e addr inp buf = .ret rc n b) :
    b.length = buf.length := by
  have hr := sw842Decompress_res e addr inp buf
  rw [h] at hr
  cases hr with
  | ok _ _ _ hb _ => exact hb
  | err hb => exact hb

/-! ## C07 (serial part) -/

/-- C07 for `sw842_compress`: the length is a positive multiple of 8 within the capacity,
and the produced bytes depend on the input only. -/
theorem C07_sw_length_contract (e e' : Endian) (addr addr' : Nat) (j j' : CompJunk) (x buf buf' : List Byte)
    (n n' : Nat) (b b' : List Byte) (h : sw842Compress e addr j x buf = .ret none n b)
    (h' : sw842Compress e' addr' j' x buf' = .ret none n' b') :
    0 < n ∧ n % 8 = 0 ∧ n ≤ buf.length ∧ n ≤ b.length ∧ n' = n ∧ b'.take n' = b.take n := by
  obtain ⟨h1, h2, h3, h4, h5⟩ := sw842Compress_ok h
  obtain ⟨h1', h2', h3', h4', h5'⟩ := sw842Compress_ok h'
  have hge := streamBits_length_ge x
  have hn : n' = n := by rw [h1, h1']
  refine ⟨?_, ?_, h2, by omega, hn, ?_⟩
  · rw [h1]; unfold paddedSize; omega
  · rw [h1]; unfold paddedSize; omega
  · subst hn
    exact bytesBits_inj (h5'.trans h5.symm)

example : sw842Compress .big 3 junk1 exIn (List.replicate 30 0x55) =
    .ret none 24 (exOut ++ List.replicate 6 0x55) := by decide +kernel

/-! ## C08 (serial part) -/

/-- C08 for `sw842_compress`. -/
theorem C08_sw_compress_olen_zero (e : Endian) (addr : Nat) (j : CompJunk) (x buf : List Byte) (er : Errno)
    (n : Nat) (b : List Byte) (h : sw842Compress e addr j x buf = .ret (some er) n b) : n = 0 := by
  obtain ⟨b', hl, hr⟩ := sw842Compress_eq e addr j x buf
  split at hr
  · rw [hr.1] at h; cases h
  · rw [hr] at h; cases h; rfl

/-- C08 for `sw842_decompress`. -/
theorem C08_sw_decompress_olen_zero (e : Endian) (addr : Nat) (inp buf : List Byte) (er : Errno)
    (n : Nat) (b : List Byte) (h : sw842Decompress e addr inp buf = .ret (some er) n b) : n = 0 := by
  have hr := sw842Decompress_res e addr inp buf
  rw [h] at hr
  cases hr; rfl

example : view (sw842Compress .little 0 junk0 exIn (List.replicate 23 0xaa)) = some (some .ENOSPC, 0, []) := by
  decide +kernel
example : sw842Decompress .little 0 [0xff] (List.replicate 3 0xaa) =
    .ret (some .EINVAL) 0 (List.replicate 3 0xaa) := by decide +kernel

/-! ## C09 (serial part) -/

/-- C09 for `sw842_decompress`: the main loop of `sw842DecompressF` runs at most `fuel`
times; any number of iterations above `8 * ilen / 5` is enough, and the result then does
not depend on it. -/
theorem C09_sw_decompress_terminates (e : Endian) (addr fuel : Nat) (inp buf : List Byte)
    (hf : 8 * inp.length / 5 < fuel) :
    sw842DecompressF fuel e addr inp buf ≠ .timeout ∧
    sw842DecompressF fuel e addr inp buf = sw842Decompress e addr inp buf := by
  have hf : 8 * inp.length < 5 * fuel := by omega
  refine ⟨?_, ?_⟩
  · intro h
    have hr := swDecompF_res e addr fuel inp buf hf
    rw [h] at hr
    cases hr
  · unfold sw842Decompress
    rcases Nat.le_total fuel (8 * inp.length + 1) with h | h
    · exact (swDecompF_fuel e addr inp buf hf h).symm
    · exact swDecompF_fuel e addr inp buf (sw842Decompress_fuel inp) h

/-- The bound is attained: 5 zeros ops in 25 bits, the sixth iteration hits the end of
the input. -/
example : sw842DecompressF 5 .little 0 [0xe7, 0x39, 0xce, 0x70] (List.replicate 60 0) = .timeout ∧
    sw842DecompressF 7 .little 0 [0xe7, 0x39, 0xce, 0x70] (List.replicate 60 0) ≠ .timeout := by
  decide +kernel

/-! ## C10, C11, C12 (serial part) -/

/-- C10 for `sw842_compress`: one fixed byte string per input; it is produced if and only
if it fits (and its length fits `UINT_MAX`), otherwise the result is `-ENOSPC`. -/
theorem C10_sw_capacity_exact (x : List Byte) :
    ∃ s : List Byte, ∀ (e : Endian) (addr : Nat) (j : CompJunk) (buf : List Byte), ∃ b,
      b.length = buf.length ∧
      if s.length ≤ buf.length ∧ s.length ≤ 0xffffffff then
        sw842Compress e addr j x buf = .ret none s.length b ∧ b.take s.length = s
      else sw842Compress e addr j x buf = .ret (some .ENOSPC) 0 b := by
  -- the string produced with plenty of space
  by_cases hu : paddedSize (streamBits x).length ≤ 0xffffffff
  · obtain ⟨b0, hl0, h0⟩ := sw842Compress_eq .big 0 junk0 x
      (List.replicate (paddedSize (streamBits x).length) 0#8)
    rw [List.length_replicate] at hl0 h0
    rw [if_pos ⟨Nat.le_refl _, hu⟩] at h0
    refine ⟨b0, fun e addr j buf => ?_⟩
    obtain ⟨b, hl, h⟩ := sw842Compress_eq e addr j x buf
    refine ⟨b, hl, ?_⟩
    rw [hl0]
    split
    · rename_i hc
      rw [if_pos hc] at h
      refine ⟨h.1, ?_⟩
      have : b.take (paddedSize (streamBits x).length) = b0.take (paddedSize (streamBits x).length) :=
        bytesBits_inj (h.2.trans h0.2.symm)
      rw [this, List.take_of_length_le (by omega)]
    · rename_i hc
      rwa [if_neg hc] at h
  · refine ⟨List.replicate (paddedSize (streamBits x).length) 0#8, fun e addr j buf => ?_⟩
    obtain ⟨b, hl, h⟩ := sw842Compress_eq e addr j x buf
    refine ⟨b, hl, ?_⟩
    rw [List.length_replicate, if_neg (fun h => hu h.2)]
    rwa [if_neg (fun h => hu h.2)] at h

/-- C11: success of `sw842_compress` implies that the output is a complete stream for the
input, although the error code of the mid-stream repeat op is discarded. -/
theorem C11_sw_no_swallowed_error (e : Endian) (addr : Nat) (j : CompJunk) (x buf : List Byte) (n : Nat)
    (b : List Byte) (h : sw842Compress e addr j x buf = .ret none n b) : Decodes (b.take n) x :=
  streamBits_decodes (sw842Compress_ok h).2.2.2.2

/-- The discarded error does occur: with 8 bytes of space the repeat op of this input no
longer fits, and the call still fails. -/
example : view (sw842Compress .little 0 junk0
    ((List.replicate 16 0x41) ++ (List.replicate 8 0x42)) (List.replicate 9 0)) =
      some (some .ENOSPC, 0, []) := by decide +kernel

/-- C12: the documented worst case. -/
theorem C12_sw_worst_case (e : Endian) (addr : Nat) (j : CompJunk) (x buf : List Byte)
    (hcap : 8 * ((69 * (x.length / 8) + (if x.length % 8 = 0 then 0 else 8 + 8 * (x.length % 8)) + 37
      + 63) / 64) ≤ buf.length)
    (hmax : 8 * ((69 * (x.length / 8) + (if x.length % 8 = 0 then 0 else 8 + 8 * (x.length % 8)) + 37
      + 63) / 64) ≤ 0xffffffff) :
    ∃ n b, sw842Compress e addr j x buf = .ret none n b ∧
      n ≤ 8 * ((69 * (x.length / 8) + (if x.length % 8 = 0 then 0 else 8 + 8 * (x.length % 8)) + 37
        + 63) / 64) := by
  obtain ⟨b, hl, h⟩ := sw842Compress_eq e addr j x buf
  have hle := streamBits_length_le x
  have hp : paddedSize (streamBits x).length ≤
      8 * ((69 * (x.length / 8) + (if x.length % 8 = 0 then 0 else 8 + 8 * (x.length % 8)) + 37
        + 63) / 64) := by
    unfold paddedSize
    exact Nat.mul_le_mul_left _ (Nat.div_le_div_right (by omega))
  rw [if_pos ⟨by omega, by omega⟩] at h
  exact ⟨_, b, h.1, hp⟩

/-- The bound is attained. -/
example : (view (sw842Compress .little 0 junk0
    [1, 2, 3, 4, 5, 6, 7, 8, 11, 12, 13, 14, 15, 16, 17, 18] (List.replicate 40 0))).map (·.2.1) =
      some (8 * ((69 * 2 + 0 + 37 + 63) / 64)) := by decide +kernel

/-! ## C13, C15, C23, C24 (serial part) -/

/-- C13: `sw842_decompress` returns `d` if and only if the input is an 842 stream for `d`
and `d` fits. -/
theorem C13_sw_accepts_exactly_format (e : Endian) (addr : Nat) (inp buf d : List Byte) :
    (∃ b, sw842Decompress e addr inp buf = .ret none d.length b ∧ b.take d.length = d) ↔
      Decodes inp d ∧ d.length ≤ buf.length ∧ d.length ≤ 0xffffffff := by
  constructor
  · rintro ⟨b, h, ht⟩
    obtain ⟨h1, -, h3, h4, -⟩ := sw842Decompress_ok h
    rw [ht] at h1
    exact ⟨h1, h3, h4⟩
  · rintro ⟨hd, h1, h2⟩
    obtain ⟨b, hb, ht, h⟩ := sw842Decompress_decodes e addr inp buf hd
    rw [if_neg (by omega), if_neg (by omega)] at h
    exact ⟨b, h, ht h1⟩

/-- The format is unambiguous: a byte string is a stream for at most one `d`. -/
theorem C13_format_unambiguous (inp d d' : List Byte) (h : Decodes inp d) (h' : Decodes inp d') : d = d' :=
  decodes_unique h h'

/-- On success the bytes returned are the decoding (`n` really is the number of bytes). -/
theorem C13_sw_success_is_decoding (e : Endian) (addr : Nat) (inp buf : List Byte) (n : Nat) (b : List Byte)
    (h : sw842Decompress e addr inp buf = .ret none n b) :
    Decodes inp (b.take n) ∧ (b.take n).length = n :=
  ⟨(sw842Decompress_ok h).1, (sw842Decompress_ok h).2.1⟩

/-- C15 for `sw842_decompress`, first half: on success the 32 bits after the end marker
are the CRC of the bytes returned. -/
theorem C15_sw_crc_checked (e : Endian) (addr : Nat) (inp buf : List Byte) (n : Nat) (b : List Byte)
    (h : sw842Decompress e addr inp buf = .ret none n b) :
    ∃ ops R, Expands ops (b.take n) ∧ bytesBits inp =
      ops.flatMap Op.bits ++ bitsOf 5 0x1e ++ bitsOf 32 (crc (b.take n)).toNat ++ R := by
  obtain ⟨ops, R, h1, h2⟩ := (sw842Decompress_ok h).1
  refine ⟨ops, R, h1, ?_⟩
  rw [h2, trailer]; simp only [List.append_assoc]

/-- C15 for `sw842_decompress`, second half: any other CRC value after the end marker
gives `-EINVAL`. -/
theorem C15_sw_wrong_crc (e : Endian) (addr : Nat) (inp buf : List Byte) (ops : List Op) (d : List Byte)
    (c : BitVec 32) (R : List Bool) (hd : Expands ops d) (hfit : d.length ≤ buf.length) (hc : c ≠ crc d)
    (hin : bytesBits inp = ops.flatMap Op.bits ++ bitsOf 5 0x1e ++ bitsOf 32 c.toNat ++ R) :
    ∃ b, sw842Decompress e addr inp buf = .ret (some .EINVAL) 0 b := by
  obtain ⟨b, -, -, h⟩ := sw842Decompress_of e addr inp buf hd (c := c) (R := R)
    (by rw [hin]; simp only [List.append_assoc])
  rw [if_neg (by omega), if_pos hc] at h
  exact ⟨b, h⟩

/-- One bit of the stored CRC flipped. -/
example : sw842Decompress .little 0 (exOut.set 17 0xe6) (List.replicate 20 0xaa) =
    .ret (some .EINVAL) 0 (exIn ++ [0xaa]) := by decide +kernel

/-- C23 for `sw842_decompress`: two inputs that agree up to the end of the CRC give the
same result, whatever follows and however long they are. -/
theorem C23_sw_trailing_ignored (e : Endian) (addr : Nat) (inp inp' buf : List Byte) (ops : List Op)
    (d : List Byte) (R R' : List Bool) (hd : Expands ops d)
    (hin : bytesBits inp = ops.flatMap Op.bits ++ trailer d ++ R)
    (hin' : bytesBits inp' = ops.flatMap Op.bits ++ trailer d ++ R') (n : Nat) (b : List Byte)
    (h : sw842Decompress e addr inp buf = .ret none n b) :
    n = d.length ∧ b.take n = d ∧
    ∃ b', sw842Decompress e addr inp' buf = .ret none n b' ∧ b'.take n = b.take n := by
  obtain ⟨h1, h2, h3, h4, h5⟩ := sw842Decompress_ok h
  have hdd : Decodes inp d := ⟨ops, R, hd, hin⟩
  have hdd' : Decodes inp' d := ⟨ops, R', hd, hin'⟩
  have heq := decodes_unique h1 hdd
  have hn : n = d.length := by rw [← heq, h2]
  refine ⟨hn, heq, ?_⟩
  obtain ⟨b', hb, ht, h'⟩ := sw842Decompress_decodes e addr inp' buf hdd'
  rw [if_neg (by omega), if_neg (by omega)] at h'
  refine ⟨b', by rw [h', hn], ?_⟩
  rw [heq, hn]
  exact ht (by omega)

/-- In particular bytes appended to a valid input are ignored. -/
theorem C23_sw_appended_ignored (e : Endian) (addr : Nat) (inp extra buf : List Byte) (n : Nat) (b : List Byte)
    (h : sw842Decompress e addr inp buf = .ret none n b) :
    ∃ b', sw842Decompress e addr (inp ++ extra) buf = .ret none n b' ∧ b'.take n = b.take n := by
  obtain ⟨ops, R, h1, h2⟩ := (sw842Decompress_ok h).1
  exact (C23_sw_trailing_ignored e addr inp (inp ++ extra) buf ops _ R (R ++ bytesBits extra) h1 h2
    (by rw [bytesBits_append, h2]; simp only [List.append_assoc]) n b h).2.2

example : sw842Decompress .little 0 (exOut.take 19 ++ [0xff, 0x12]) (List.replicate 20 0xaa) =
    .ret none 19 (exIn ++ [0xaa]) := by decide +kernel

/-- C24 for `sw842_decompress`. -/
theorem C24_sw_capacity_exact (e : Endian) (addr : Nat) (inp buf buf' : List Byte) (n : Nat) (b : List Byte)
    (h : sw842Decompress e addr inp buf = .ret none n b) :
    (n ≤ buf'.length → ∃ b', sw842Decompress e addr inp buf' = .ret none n b' ∧ b'.take n = b.take n) ∧
    (buf'.length < n → ∃ b', sw842Decompress e addr inp buf' = .ret (some .ENOSPC) 0 b') := by
  obtain ⟨h1, h2, h3, h4, h5⟩ := sw842Decompress_ok h
  obtain ⟨b', hb, ht, h'⟩ := sw842Decompress_decodes e addr inp buf' h1
  rw [h2] at ht h'
  constructor
  · intro hle
    rw [if_neg (by omega), if_neg (by omega)] at h'
    exact ⟨b', h', ht hle⟩
  · intro hlt
    rw [if_pos hlt] at h'
    exact ⟨b', h'⟩

example : view (sw842Decompress .little 0 exOut (List.replicate 18 0xaa)) = some (some .ENOSPC, 0, []) := by
  decide +kernel

/-! ## C20 -/

/-- The template op sequence of a stream picks a shortest template at every template op:
`out` is what the preceding ops produced, `out'` what the op turns it into. -/
def PicksCheapest (ops : List Op) : Prop :=
  ∀ pre code args post out out', ops = pre ++ Op.template code args :: post →
    Run [] pre out → OpStep out (.template code args) out' →
    ∀ code' args', (Op.template code' args').Valid → OpStep out (.template code' args') out' →
      (Op.template code args).bits.length ≤ (Op.template code' args').bits.length

theorem runP_picks {out0 : List Byte} {ops : List Op} {out1 : List Byte} (h : RunP BlockGood out0 ops out1)
    (pre : List Op) (code : Nat) (args : List Arg) (post : List Op) (out out' : List Byte)
    (he : ops = pre ++ Op.template code args :: post) (hr : Run out0 pre out)
    (hs : OpStep out (.template code args) out') (code' : Nat) (args' : List Arg)
    (hv : (Op.template code' args').Valid) (hs' : OpStep out (.template code' args') out') :
    (Op.template code args).bits.length ≤ (Op.template code' args').bits.length := by
  induction h generalizing pre with
  | nil => simp at he
  | cons hp hst _ ih =>
    cases pre with
    | nil =>
      cases hr
      rw [List.nil_append] at he
      cases he
      exact hp.2.2.2 _ _ rfl _ hs _ _ hv hs'
    | cons q pre =>
      rw [List.cons_append] at he
      cases he
      cases hr with
      | cons hst' hr' =>
        have := OpStep.det hp.1 hst hst'
        subst this
        exact ih pre rfl hr'

/-- C20: the stream produced by `sw842_compress` consists of ops that expand to the
input, and every template op among them is a cheapest one for its 8 bytes. -/
theorem C20_sw_cheapest_template (e : Endian) (addr : Nat) (j : CompJunk) (x buf : List Byte) (n : Nat)
    (b : List Byte) (h : sw842Compress e addr j x buf = .ret none n b) :
    ∃ ops R, Expands ops x ∧ bytesBits (b.take n) = ops.flatMap Op.bits ++ trailer x ++ R ∧
      PicksCheapest ops := by
  refine ⟨refOps x, _, refOps_expands x, (sw842Compress_ok h).2.2.2.2, ?_⟩
  intro pre code args post out out' he hr hs code' args' hv hs'
  have hloop := refLoop_ok x
  unfold refOps at he
  -- the template lies in the block part
  have : ∃ post', refLoop x (x.length / 8) .init 0 none 0 = pre ++ Op.template code args :: post' := by
    unfold shortOps at he
    split at he
    · exact ⟨post, by rw [← he, List.append_nil]⟩
    · rcases List.eq_nil_or_concat post with hp | ⟨post', l, hp⟩
      · subst hp
        rw [show pre ++ [Op.template code args] = pre ++ [Op.template code args] from rfl] at he
        have := List.append_inj_right' he rfl
        simp at this
      · subst hp
        refine ⟨post', ?_⟩
        have he2 : refLoop x (x.length / 8) .init 0 none 0 ++ [Op.short (x.drop (8 * (x.length / 8)))] =
          (pre ++ Op.template code args :: post') ++ [l] := by
          rw [he]; simp
        exact List.append_inj_left' he2 rfl
  obtain ⟨post', he'⟩ := this
  exact runP_picks hloop pre code args post' out out' he' hr hs code' args' hv hs'

/-- A stream with a non-trivial choice: the second block is coded with template 0x13
(`I2 I2 I4`). -/
example : (view (sw842Compress .little 0 junk0
    [1, 2, 3, 4, 5, 6, 7, 8, 3, 4, 1, 2, 5, 6, 7, 8] (List.replicate 40 0))).map (bytesBits ·.2.2) =
    some ((Op.template 0 [.data [1, 2, 3, 4, 5, 6, 7, 8]]).bits ++
      (Op.template 0x13 [.index 2 1, .index 2 0, .index 4 1]).bits ++
      trailer [1, 2, 3, 4, 5, 6, 7, 8, 3, 4, 1, 2, 5, 6, 7, 8] ++ List.replicate 56 false) := by
  decide +kernel

/-! ## C21, C25 (serial part) -/

/-- C21 for `sw842_compress`: the produced bytes do not depend on the uninitialised
workspace. -/
theorem C21_sw_workspace_independent (e : Endian) (addr : Nat) (j j' : CompJunk) (x buf : List Byte) :
    ∃ rc n b b', sw842Compress e addr j x buf = .ret rc n b ∧
      sw842Compress e addr j' x buf = .ret rc n b' ∧ b'.take n = b.take n := by
  obtain ⟨b, hl, h⟩ := sw842Compress_eq e addr j x buf
  obtain ⟨b', hl', h'⟩ := sw842Compress_eq e addr j' x buf
  split at h
  · rename_i hc
    rw [if_pos hc] at h'
    exact ⟨_, _, b, b', h.1, h'.1, bytesBits_inj (h'.2.trans h.2.symm)⟩
  · rename_i hc
    rw [if_neg hc] at h'
    exact ⟨_, _, b, b', h, h', rfl⟩

example : sw842Compress .little 0 junk1 exIn (List.replicate 24 0xaa) = .ret none 24 exOut := by
  decide +kernel

/-- C25 for `sw842_compress`: return code, length and the complete output buffer agree on
little- and big-endian hosts. -/
theorem C25_sw_compress_endian (addr : Nat) (j : CompJunk) (x buf : List Byte) :
    sw842Compress .little addr j x buf = sw842Compress .big addr j x buf :=
  sw842Compress_big .little addr addr j x buf

/-- C25 for `sw842_decompress`, for arbitrary input. -/
theorem C25_sw_decompress_endian (addr : Nat) (inp buf : List Byte) :
    sw842Decompress .little addr inp buf = sw842Decompress .big addr inp buf :=
  sw842Decompress_big .little addr addr inp buf

/-! ## C26 (serial part) -/

/-- C26 for `sw842_compress`: no software-only op if the length is a multiple of 8. -/
theorem C26_sw_hw_compatible (e : Endian) (addr : Nat) (j : CompJunk) (x buf : List Byte) (n : Nat)
    (b : List Byte) (h : sw842Compress e addr j x buf = .ret none n b) (hx : x.length % 8 = 0) :
    HwDecodes (b.take n) x := by
  refine ⟨refOps x, _, refOps_expands x, ?_, (sw842Compress_ok h).2.2.2.2⟩
  intro op hop
  unfold refOps shortOps at hop
  rw [if_pos hx, List.append_nil] at hop
  obtain ⟨o, ho⟩ := (refLoop_ok x).forall op hop
  exact ho.2.1

/-- Otherwise exactly one short-data op, holding the last `len % 8` bytes, directly before
the end marker. -/
theorem C26_sw_short_last (e : Endian) (addr : Nat) (j : CompJunk) (x buf : List Byte) (n : Nat)
    (b : List Byte) (h : sw842Compress e addr j x buf = .ret none n b) (hx : x.length % 8 ≠ 0) :
    ∃ ops R, Expands (ops ++ [.short (x.drop (8 * (x.length / 8)))]) x ∧
      (∀ op ∈ ops, op.isShort = false) ∧
      bytesBits (b.take n) =
        (ops ++ [Op.short (x.drop (8 * (x.length / 8)))]).flatMap Op.bits ++ trailer x ++ R := by
  have hs := (sw842Compress_ok h).2.2.2.2
  have he := refOps_expands x
  unfold streamBits refOps shortOps at hs
  unfold refOps shortOps at he
  rw [if_neg hx] at hs he
  refine ⟨_, _, he, ?_, hs⟩
  intro op hop
  obtain ⟨o, ho⟩ := (refLoop_ok x).forall op hop
  exact ho.2.1

example : exIn.length % 8 ≠ 0 ∧ (exIn.take 16).length % 8 = 0 ∧
    (view (sw842Compress .little 0 junk0 (exIn.take 16) (List.replicate 24 0xaa))).map (·.1) = some none :=
  ⟨by decide, by decide, by decide +kernel⟩

/-! ## C28 -/

theorem c28_aux (m cap : Nat) (h8 : m % 8 = 0) (hm : 0xffffffff < m)
    (hc : 8 * ((11 * (m / 8) + 42 + 63) / 64) ≤ cap) (hc' : 8 * ((11 * (m / 8) + 42 + 63) / 64) ≤ 0xffffffff) :
    ∃ n b, sw842Compress .little 0 junk0 (List.replicate m 0#8) (List.replicate cap 0#8) = .ret none n b ∧
      ∀ (e : Endian) (addr : Nat) (buf' : List Byte),
        ∃ b', sw842Decompress e addr (b.take n) buf' = .ret (some .ENOSPC) 0 b' := by
  obtain ⟨b, hl, h⟩ := sw842Compress_eq .little 0 junk0 (List.replicate m 0#8) (List.replicate cap 0#8)
  have hz := streamBits_zeros_le m h8
  rw [List.length_replicate] at h
  have hle : paddedSize (streamBits (List.replicate m 0#8)).length ≤ 8 * ((11 * (m / 8) + 42 + 63) / 64) := by
    unfold paddedSize; omega
  rw [if_pos ⟨by omega, by omega⟩] at h
  refine ⟨_, b, h.1, fun e addr buf' => ?_⟩
  obtain ⟨b', -, -, h'⟩ := sw842Decompress_decodes e addr _ buf' (streamBits_decodes h.2)
  rw [List.length_replicate, if_pos hm] at h'
  refine ⟨b', ?_⟩
  rw [h']
  split <;> rfl

/-- C28 is false: `sw842_compress` accepts 4 GiB of zero bytes (and far more), but
`sw842_decompress` rejects the result for every capacity, because it returns an error when
more than `UINT_MAX` bytes were produced (842_decompress.c 400-403). -/
theorem C28_sw_accepts_undecompressible :
    ∃ x : List Byte, ∃ buf n b, sw842Compress .little 0 junk0 x buf = .ret none n b ∧
      ∀ (e : Endian) (addr : Nat) (buf' : List Byte),
        ∃ b', sw842Decompress e addr (b.take n) buf' = .ret (some .ENOSPC) 0 b' := by
  have h := c28_aux (2 ^ 32) (2 ^ 30) (by norm_num) (by norm_num) (by norm_num) (by norm_num)
  exact ⟨_, _, h⟩

/-- The full claim of C28, refuted. -/
theorem C28_sw_everything_decompressible_false :
    ¬ ∀ (e : Endian) (addr : Nat) (j : CompJunk) (x buf : List Byte) (n : Nat) (b : List Byte),
      sw842Compress e addr j x buf = .ret none n b →
      ∃ buf' n' b', sw842Decompress e addr (b.take n) buf' = .ret none n' b' := by
  intro h
  obtain ⟨x, buf, n, b, hc, hd⟩ := C28_sw_accepts_undecompressible
  obtain ⟨buf', n', b', h'⟩ := h _ _ _ _ _ _ _ hc
  obtain ⟨b'', h''⟩ := hd .little 0 buf'
  rw [h'] at h''
  cases h''

/-- C28 holds exactly up to `UINT_MAX` bytes. -/
theorem C28_sw_everything_decompressible_partial (e e' : Endian) (addr addr' : Nat) (j : CompJunk)
    (x buf : List Byte) (n : Nat) (b : List Byte) (h : sw842Compress e addr j x buf = .ret none n b) :
    (∃ buf' n' b', sw842Decompress e' addr' (b.take n) buf' = .ret none n' b') ↔ x.length ≤ 0xffffffff := by
  constructor
  · rintro ⟨buf', n', b', h'⟩
    obtain ⟨h1, h2, h3, h4, h5⟩ := sw842Decompress_ok h'
    have := decodes_unique h1 (C11_sw_no_swallowed_error _ _ _ _ _ _ _ h)
    rw [← this, h2]; exact h4
  · intro hx
    obtain ⟨b', hb, -⟩ := C01_sw_round_trip e e' addr addr' j x buf x n b hx h (Nat.le_refl _)
    exact ⟨_, _, _, hb⟩

end Lib842.Props
