import Verif.Proofs.OclNoLook
import Verif.Props.Ocl
import Verif.Props.Config
/-!
# C89: other configurations of the OpenCL kernel

`OclCfg` has the three switches of `decompress.cl`: `errors`, `look`, `crc`; `⟨true, true, true⟩` is the
configuration of the repository.  The source says that the look-ahead buffer "isn't needed" when input
and output are different buffers.
-/

namespace Lib842.Props
open Lib842 Spec OclConfig

/-- The configuration of the repository is the kernel of C43-C46 and C57. -/
theorem C89_default (e : Endian) (src : Option (List Byte)) (ioff ilen : Nat) (buf : List Byte) (olen : Nat) :
    oclCoreCfg ⟨true, true, true⟩ e src ioff ilen buf olen = oclCore e src ioff ilen buf olen :=
  oclCoreCfg_std src ioff ilen buf olen

/-! ## The look-ahead buffer -/

/-- C89: when input and output are different buffers, leaving out the look-ahead buffer changes no
result, neither on valid nor on invalid streams. -/
theorem C89_lookahead_not_needed (c : Bool) (e : Endian) (inp buf b : List Byte) (ioff ilen olen n : Nat)
    (rc : Option Errno) (h : oclCoreCfg ⟨true, true, c⟩ e (some inp) ioff ilen buf olen = .ret rc n b) :
    oclCoreCfg ⟨true, false, c⟩ e (some inp) ioff ilen buf olen = .ret rc n b :=
  core_nolook c (fun _ _ => rfl) h

/-- C89: without look-ahead buffer only the complete words of the input are read (the kernel as it is
reads on to the next multiple of eight, C57). -/
theorem C89_complete_words (e : Endian) (inp buf : List Byte) (ioff ilen olen : Nat)
    (hin : 8 * ioff + 8 * (ilen / 8) ≤ inp.length) (hout : olen + 2 ≤ buf.length) :
    ∃ rc n b, oclCoreCfg ⟨true, false, true⟩ e (some inp) ioff ilen buf olen = .ret rc n b ∧ b.length = buf.length ∧
      n ≤ olen ∧ b.drop olen = buf.drop olen ∧ (rc = none ∨ (n = 0 ∧ (rc = some .EINVAL ∨ rc = some .ENOSPC))) := by
  obtain ⟨rc, n, b, h, h1⟩ := C57_ocl_bounds_partial e (inp ++ List.replicate 8 0) buf ioff ilen olen
    (by rw [List.length_append, List.length_replicate]; omega) hout
  refine ⟨rc, n, b, ?_, h1⟩
  rw [← C89_default] at h
  refine core_nolook true (inp' := inp ++ List.replicate 8 0) ?_ h
  intro j hj
  unfold load64 readBytes
  rw [if_pos (by omega), if_pos (by rw [List.length_append]; omega), List.drop_append_of_le_length (by omega),
    List.take_append_of_le_length (by simp; omega)]

/-- Here the two differ: 20 bytes of input. -/
theorem C89_complete_words_differ :
    oclCore .little (some (exOut8.take 20)) 0 20 (List.replicate 40 0) 40 = .ub ∧
    view (oclCoreCfg ⟨true, false, true⟩ .little (some (exOut8.take 20)) 0 20 (List.replicate 40 0) 40) =
      some (some .EINVAL, 0, []) :=
  ⟨C57_ocl_bounds_false.2.1, by decide +kernel⟩

/-! ## In place without look-ahead buffer -/

/-- Like `RoomInPlace`, for a kernel that looks at no word before it needs it. -/
def RoomDirect (c n : Nat) (ops : List Op) : Prop :=
  ∀ pre post o, ops = pre ++ post → Run [] pre o →
    o.length ≤ (c - n) + 8 * (((pre.flatMap Op.bits).length + 63) / 64) ∨
    n ≤ 8 * (((pre.flatMap Op.bits).length + 63) / 64)

/-- The condition is stronger than the one with look-ahead buffer. -/
theorem C89_room (c n : Nat) (ops : List Op) (h : RoomDirect c n ops) : RoomInPlace c n ops := by
  intro pre post o h1 h2
  have := h pre post o h1 h2
  omega

/-- C89: in place and without look-ahead buffer, whatever the other switches are, a stream of `n` bytes
at the end of a chunk is decoded if the output never reaches words that have not been used. -/
theorem C89_inplace_partial (er c : Bool) (e : Endian) (x buf : List Byte) (n olen : Nat) (ops : List Op) (rest : List Bool)
    (h8 : x.length % 8 = 0) (hn : n % 8 = 0) (hnx : n ≤ x.length) (hb : x.length ≤ buf.length) (ho : x.length ≤ olen)
    (hx : Expands ops x) (hs : ∀ op ∈ ops, op.isShort = false)
    (hst : bytesBits ((buf.drop (x.length - n)).take n) = ops.flatMap Op.bits ++ (trailer x ++ rest))
    (hr : RoomDirect x.length n ops) :
    oclCoreCfg ⟨er, false, c⟩ e none ((x.length - n) / 8) n buf olen = .ret none x.length (x ++ buf.drop x.length) := by
  obtain ⟨b, h1, h2, h3, h4⟩ := core_of er c e none ((x.length - n) / 8) n buf olen
    (by simp only [Option.getD_none]; omega) hx hs (rest := bitsOf 32 (crc x).toNat ++ rest) (fun _ => by simp)
    (by
      simp only [Option.getD_none]
      rw [show 8 * ((x.length - n) / 8) = x.length - n by omega, show 8 * (n / 8) = n by omega, hst, trailer]
      simp)
    ho hb (.inr (by
      intro pre post o hp hrun
      have := hr pre post o hp hrun
      unfold wordsUsed
      omega))
  rw [h1]
  congr 1
  rw [← List.take_append_drop x.length b, h3, h4]

/-- The condition holds for every chunk that compresses to one word. -/
theorem C89_room_small (c : Nat) (ops : List Op) : RoomDirect c 8 ops := by
  intro pre post o _ hr
  cases pre with
  | nil => cases hr; left; simp
  | cons op pre =>
    right
    have := five_le_bits op
    simp only [List.flatMap_cons, List.length_append]
    omega

example (er c : Bool) :
    oclCoreCfg ⟨er, false, c⟩ .little none 7 8 zeroChunk 64 = .ret none 64 (List.replicate 64 0 ++ [1, 2]) := by
  have hv : optsw842Decompress .little 0 0 [230, 198, 240, 0, 0, 0, 0, 0] (List.replicate 64 1) =
      .ret none 64 (List.replicate 64 0) := by decide +kernel
  obtain ⟨ops, rest, h1, h2, h3⟩ := (C14_opt_success_is_decoding .little 0 0 _ _ _ _ (by decide) hv).1
  exact C89_inplace_partial er c .little (List.replicate 64 0) zeroChunk 8 64 ops rest (by decide) (by decide) (by decide)
    (by decide) (by decide) h1 h2 (by rw [← List.append_assoc]; exact h3) (C89_room_small _ _)

/-- 40 zero bytes and 24 others. -/
def tightData : List Byte :=
  List.replicate 40 0 ++ [1, 2, 3, 4, 5, 6, 7, 8, 9, 10, 11, 12, 13, 14, 15, 16, 17, 18, 19, 20, 21, 22, 23, 24]

/-- They compress to 40 bytes. -/
def tightStream : List Byte :=
  [0xe6, 0xc3, 0x00, 0x08, 0x10, 0x18, 0x20, 0x28, 0x30, 0x38, 0x40, 0x02, 0x42, 0x82, 0xc3, 0x03, 0x43, 0x83, 0xc4,
    0x00, 0x22, 0x24, 0x26, 0x28, 0x2a, 0x2c, 0x2e, 0x31, 0xe7, 0x05, 0xa4, 0x91, 0x80, 0, 0, 0, 0, 0, 0, 0]

/-- The chunk of 64 bytes the host makes of it. -/
def tightChunk : List Byte := marker ++ sizeBytes 40 ++ tightStream

/-- C89: in place the look-ahead buffer is needed: a chunk as the host packs it is restored with it, but
without it the kernel reports an error, or (without error handling) leaves the buffer. -/
theorem C89_inplace_false :
    packChunk .little 0 0 ojunk0 junk0 tightData (List.replicate 64 0) (List.replicate 128 0) = some tightChunk ∧
    oclCore .little none 3 40 tightChunk 64 = .ret none 64 tightData ∧
    view (oclCoreCfg ⟨true, false, true⟩ .little none 3 40 tightChunk 64) = some (some .ENOSPC, 0, []) ∧
    oclCoreCfg ⟨false, false, true⟩ .little none 3 40 tightChunk 64 = .ub :=
  ⟨by decide +kernel, by decide +kernel, by decide +kernel, by decide +kernel⟩

/-! ## No error handling -/

/-- C89, partial: a kernel without error handling gives every result the kernel with error handling
reports as a success. -/
theorem C89_no_errors_partial (c : Bool) (e : Endian) (inp buf b : List Byte) (ioff ilen olen n : Nat)
    (h : oclCoreCfg ⟨true, true, c⟩ e (some inp) ioff ilen buf olen = .ret none n b) :
    oclCoreCfg ⟨false, false, c⟩ e (some inp) ioff ilen buf olen = .ret none n b := by
  unfold oclCoreCfg at h ⊢
  unfold oclInitC at h ⊢
  simp only [if_true, Bool.false_eq_true, if_false] at h ⊢
  cases hi : oclInit e (oclStart (some inp) ioff ilen buf olen) with
  | none => rw [hi] at h; cases h
  | some p =>
    rw [hi] at h
    simp only at h
    obtain ⟨h1, h2⟩ := init_rd (inp := inp) hi (fun _ _ => rfl)
    unfold oclBodyC at h ⊢
    rw [oclIterC_std] at h
    have hl := (loop_sim (er := false) (e := e) c (8 * ilen + 1) (s := some inp) (by simp)).run p h1
    rw [h2] at hl
    cases hx : M.doWhile (oclIter e) (8 * ilen + 1) p with
    | ok u q =>
      rw [hx] at hl
      rw [M.bind_ok hx] at h
      obtain ⟨hl1, hl2⟩ := hl
      have hf := fuel_ok hl1
      rw [show 8 * (Option.getD (some inp) buf).length + 1 = fuelOf false (some inp) ilen buf from rfl, M.bind_ok hf]
      cases c with
      | false =>
        simp only [Bool.false_eq_true, if_false] at h ⊢
        exact h
      | true =>
        simp only [if_true] at h ⊢
        rw [oclReadBitsC_std] at h
        have hr := (readBits_sim (er := false) (e := e) (s := some inp) true 32).run q hl2
        cases hy : oclReadBits e 32 q with
        | ok v r =>
          rw [hy] at hr
          rw [M.bind_ok hy] at h
          rw [M.bind_ok hr.1]
          exact h
        | err er r => rw [M.bind_err hy] at h; cases h
        | ub => rw [M.bind_def, hy] at h; cases h
        | timeout => rw [M.bind_def, hy] at h; cases h
    | err er q => rw [M.bind_err hx] at h; cases h
    | ub => rw [M.bind_def, hx] at h; cases h
    | timeout => rw [M.bind_def, hx] at h; cases h

/-- C89: without error handling the kernel never reports an error: on every input it returns 0 or does
something undefined, and it always ends. -/
theorem C89_no_errors_outcome (c : Bool) (e : Endian) (src : Option (List Byte)) (buf : List Byte) (ioff ilen olen : Nat) :
    oclCoreCfg ⟨false, false, c⟩ e src ioff ilen buf olen = .ub ∨
    ∃ n b, oclCoreCfg ⟨false, false, c⟩ e src ioff ilen buf olen = .ret none n b ∧ b.length = buf.length := by
  have hp := body_prog (e := e) c (8 * (src.getD buf).length + 1) (oclStart src ioff ilen buf olen) (by
    show 8 * (Option.getD src buf).length - 64 * (ioff + 0) + 0 < 5 * (8 * (Option.getD src buf).length + 1)
    omega)
  unfold oclCoreCfg oclInitC
  simp only [Bool.false_eq_true, if_false]
  rcases hp with hp | ⟨n, q, hp, hl⟩
  · rw [hp]; exact .inl rfl
  · rw [hp]; exact .inr ⟨n, q.buf, rfl, hl⟩

/-- A stream with the op code 0x1f, which does not exist. -/
def badOp : List Byte := [0xf8, 0, 0, 0x03, 0xc0, 0, 0, 0, 0, 0, 0, 0, 0, 0, 0, 0]

/-- C89: without error handling the sizes do not matter and invalid streams are accepted: (1) a stream
longer than `ilen` is read to its end, (2) a stream that ends early makes the kernel read after its
end, (3) `olen` does not limit what is written, (4) not even the end of the output buffer does, (5) an
op code that does not exist is taken for data, (6) a reference to bytes that have not been written
returns what was in the buffer. -/
theorem C89_no_errors_false :
    (view (oclCore .little (some exOut8) 0 16 (List.replicate 40 0) 40) = some (some .EINVAL, 0, []) ∧
      oclCoreCfg ⟨false, false, true⟩ .little (some exOut8) 0 16 (List.replicate 40 0) 40 =
        .ret none 32 (exIn8 ++ List.replicate 8 0)) ∧
    oclCoreCfg ⟨false, false, true⟩ .little (some (exOut8.take 16)) 0 16 (List.replicate 40 0) 40 = .ub ∧
    oclCoreCfg ⟨false, false, true⟩ .little (some exOut8) 0 24 (List.replicate 40 0) 24 =
      .ret none 32 (exIn8 ++ List.replicate 8 0) ∧
    oclCoreCfg ⟨false, false, true⟩ .little (some exOut8) 0 24 (List.replicate 24 0) 24 = .ub ∧
    (view (oclCore .little (some badOp) 0 16 (List.replicate 16 7) 16) = some (some .EINVAL, 0, []) ∧
      view (oclCoreCfg ⟨false, false, true⟩ .little (some badOp) 0 16 (List.replicate 16 7) 16) =
        some (none, 8, [7, 7, 7, 7, 0, 0, 7, 7])) ∧
    (∀ v : Byte, oclCoreCfg ⟨false, false, true⟩ .little (some unwrittenRef) 0 8 (List.replicate 16 v) 16 =
      .ret none 8 (List.replicate 16 v)) := by
  refine ⟨⟨by decide +kernel, by decide +kernel⟩, by decide +kernel, by decide +kernel, by decide +kernel,
    ⟨by decide +kernel, by decide +kernel⟩, ?_⟩
  intro v
  exact (by decide +kernel : ∀ v : Fin 256, oclCoreCfg ⟨false, false, true⟩ .little (some unwrittenRef) 0 8
    (List.replicate 16 (BitVec.ofFin v)) 16 = .ret none 8 (List.replicate 16 (BitVec.ofFin v))) v.toFin

/-! ## No checksum -/

/-- C89: without checksum, with or without look-ahead buffer, the kernel accepts exactly the op
sequences with an end marker whose data fit, and returns their data; it never does anything undefined. -/
theorem C89_no_crc (look : Bool) (e : Endian) (inp buf : List Byte) (ilen olen : Nat) (h8 : ilen % 8 = 0)
    (hin : ilen ≤ inp.length) (hout : olen + 2 ≤ buf.length) :
    (∀ d, (∃ b, oclCoreCfg ⟨true, look, false⟩ e (some inp) 0 ilen buf olen = .ret none d.length b ∧
        b.take d.length = d) ↔ PlainDecodes (inp.take ilen) d ∧ d.length ≤ olen) ∧
    ∃ rc n b, oclCoreCfg ⟨true, look, false⟩ e (some inp) 0 ilen buf olen = .ret rc n b ∧ b.length = buf.length ∧
      b.drop olen = buf.drop olen ∧ (rc = none ∨ (n = 0 ∧ (rc = some .EINVAL ∨ rc = some .ENOSPC))) := by
  have hres := coreNC_res e inp 0 ilen buf olen (by omega) (by omega)
  rw [Nat.mul_zero, List.drop_zero, show 8 * (ilen / 8) = ilen by omega] at hres
  have hall : ∃ rc n b, oclCoreCfg ⟨true, true, false⟩ e (some inp) 0 ilen buf olen = .ret rc n b ∧
      oclCoreCfg ⟨true, look, false⟩ e (some inp) 0 ilen buf olen = .ret rc n b := by
    have : ∀ rc n b, oclCoreCfg ⟨true, true, false⟩ e (some inp) 0 ilen buf olen = .ret rc n b →
        oclCoreCfg ⟨true, look, false⟩ e (some inp) 0 ilen buf olen = .ret rc n b := by
      intro rc n b h
      cases look with
      | true => exact h
      | false => exact C89_lookahead_not_needed false e inp buf b 0 ilen olen n rc h
    generalize hc : oclCoreCfg ⟨true, true, false⟩ e (some inp) 0 ilen buf olen = x at hres this
    cases hres with
    | ub h => omega
    | ok => exact ⟨_, _, _, rfl, this _ _ _ rfl⟩
    | full => exact ⟨_, _, _, rfl, this _ _ _ rfl⟩
    | bad => exact ⟨_, _, _, rfl, this _ _ _ rfl⟩
  obtain ⟨rc, n, b, h1, h2⟩ := hall
  rw [h1] at hres
  rw [h2]
  refine ⟨fun d => ⟨?_, ?_⟩, ?_⟩
  · rintro ⟨b', hb', ht⟩
    cases hb'
    generalize hn : d.length = n at hres ht
    cases hres with
    | @ok ops data _ R hx hs hr hd hl ht' hdr =>
      rw [ht'] at ht
      subst ht
      exact ⟨⟨ops, R, hx, hs, hr⟩, by omega⟩
  · rintro ⟨⟨ops, R, hx, hs, hr⟩, hd⟩
    obtain ⟨b', h3, h4, h5, h6⟩ := core_of true false e (some inp) 0 ilen buf olen (by simp only [Option.getD_some]; omega)
      hx hs (by simp) (by
        simp only [Option.getD_some]
        rw [Nat.mul_zero, List.drop_zero, show 8 * (ilen / 8) = ilen by omega]; exact hr)
      hd (by omega) (.inl (by simp))
    have h7 := C89_lookahead_not_needed false e inp buf b 0 ilen olen n rc h1
    rw [h7] at h3
    exact ⟨b', h3, h5⟩
  · refine ⟨rc, n, b, rfl, ?_⟩
    cases hres with
    | ok hx hs hr hd hl ht hdr => exact ⟨hl, drop_eq_of_le hdr hd, .inl rfl⟩
    | full hx hs hr hd hl hdr => exact ⟨hl, hdr, .inr ⟨rfl, .inr rfl⟩⟩
    | bad hx hl hdr => exact ⟨hl, hdr, .inr ⟨rfl, .inl rfl⟩⟩

/-- C89: switching the checksum off changes no success of the kernel (which does not compare it, C44);
streams that end right after the end marker are accepted in addition. -/
theorem C89_no_crc_same (look : Bool) (e : Endian) (inp buf b : List Byte) (ilen olen n : Nat) (h8 : ilen % 8 = 0)
    (hin : ilen ≤ inp.length) (hout : olen + 2 ≤ buf.length)
    (h : oclCore e (some inp) 0 ilen buf olen = .ret none n b) :
    oclCoreCfg ⟨true, look, false⟩ e (some inp) 0 ilen buf olen = .ret none n b := by
  have hr := oclCore_res e inp 0 ilen buf olen (by omega) (by omega)
  rw [h, Nat.mul_zero, List.drop_zero, show 8 * (ilen / 8) = ilen by omega] at hr
  cases hr with
  | @ok d _ hd hl hlen ht hdr =>
    obtain ⟨ops, R, h1, h2, h3, h4⟩ := hd
    have hlook : oclCoreCfg ⟨true, false, false⟩ e (some inp) 0 ilen buf olen = .ret none d.length b := by
      obtain ⟨b', h5, h6, h7, h8'⟩ := core_of true false e (some inp) 0 ilen buf olen (by simp only [Option.getD_some]; omega)
        h1 h2 (by simp) (by
          simp only [Option.getD_some]
          rw [Nat.mul_zero, List.drop_zero, show 8 * (ilen / 8) = ilen by omega]; exact h4)
        hl (by omega) (.inl (by simp))
      rw [h5]
      congr 1
      rw [← List.take_append_drop d.length b', h7, h8', ← hdr, ← ht]
      conv_lhs => enter [1]; rw [ht]
      conv_rhs => rw [← List.take_append_drop d.length b, ht]
      rw [ht]
    cases look with
    | false => exact hlook
    | true =>
      obtain ⟨-, rc, m, b', h5, -⟩ := C89_no_crc true e inp buf ilen olen h8 hin hout
      rw [C89_lookahead_not_needed false e inp buf b' 0 ilen olen m rc h5] at hlook
      rw [h5, hlook]

/-! ## Examples -/

example : oclCoreCfg ⟨true, true, true⟩ .little (some exOut8) 0 24 (List.replicate 40 0) 32 =
    .ret none 32 (exIn8 ++ List.replicate 8 0) := by decide +kernel

/-- Six zero words and the end marker, no room for a checksum. -/
example : view (oclCore .little (some [0xe7, 0x39, 0xce, 0x73, 0xc0, 0, 0, 0]) 0 8 (List.replicate 50 7) 48) =
      some (some .EINVAL, 0, []) ∧
    view (oclCoreCfg ⟨true, false, false⟩ .little (some [0xe7, 0x39, 0xce, 0x73, 0xc0, 0, 0, 0]) 0 8
      (List.replicate 50 7) 48) = some (none, 48, List.replicate 48 0) := by
  constructor <;> decide +kernel

end Lib842.Props
