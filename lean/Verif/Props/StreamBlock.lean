import Verif.Proofs.StreamBlock
import Verif.Props.DecompStream
/-!
# C36, C38: blocks of the streams

`ChunkContract f g` (what the streams expect of compressor and decompressor), `Block.Raw`,
`Block.Comp` and `Block.Holds` are at the top of `Verif/Proofs/StreamBlock.lean`.
-/

namespace Lib842.Props
open Lib842 Spec

/-! ## The implementations meet the contract -/

/-- The single-chunk functions of the implementations, with the addresses of input and output;
`j` and `jsw` are the contents of freshly allocated memory, in each call. -/
def swC (e : Endian) (j : Nat → CompJunk) : ChunkFn := fun a _ src dst => sw842Compress e a (j a) src dst
def swD (e : Endian) : ChunkFn := fun _ o src dst => sw842Decompress e o src dst
def optC (e : Endian) (j : Nat → OptJunk) (jsw : Nat → CompJunk) : ChunkFn := fun a o src dst =>
  optsw842Compress e a o (j a) (jsw a) src dst
def optD (e : Endian) : ChunkFn := fun a o src dst => optsw842Decompress e a o src dst

theorem keeps_swC (e : Endian) (j : Nat → CompJunk) : KeepsSize (swC e j) := fun so d =>
  (C29_functions_keep_size e so d ojunk0 (j so)).1 0 d
theorem keeps_swD (e : Endian) : KeepsSize (swD e) := fun so d =>
  (C29_functions_keep_size e so d ojunk0 junk0).2.1 so 0
theorem keeps_optC (e : Endian) (j : Nat → OptJunk) (jsw : Nat → CompJunk) : KeepsSize (optC e j jsw) := fun so d =>
  (C29_functions_keep_size e so d (j so) (jsw so)).2.2.1 0 0
theorem keeps_optD (e : Endian) : KeepsSize (optD e) := fun so d =>
  (C29_functions_keep_size e so d ojunk0 junk0).2.2.2 0 0

theorem exact_of_take {x b dst : List Byte} (hx : x.length = 65536) (hd : dst.length = 65536)
    (h1 : b.take x.length = x) (h2 : b.length = dst.length) : b = x := by
  rw [← h1, List.take_of_length_le (by omega)]

/-- C36: all four combinations of the serial and the optimized codec meet the contract. -/
theorem C36_contracts (e e' : Endian) (j : Nat → OptJunk) (jsw : Nat → CompJunk) :
    ChunkContract (swC e jsw) (swD e') ∧ ChunkContract (optC e j jsw) (optD e') ∧
    ChunkContract (swC e jsw) (optD e') ∧ ChunkContract (optC e j jsw) (swD e') := by
  have tsw : ∀ a o (src dst : List Byte), src.length = 65536 → dst.length = 65536 →
      ∃ rc n buf, swC e jsw a o src dst = .ret rc n buf := by
    intro a o src dst _ _
    obtain ⟨_, _, rc, n, b, h, _⟩ := C04_sw_compress_in_bounds e a (jsw a) src dst
    exact ⟨rc, n, b, h⟩
  have topt : ∀ a o (src dst : List Byte), src.length = 65536 → dst.length = 65536 →
      ∃ rc n buf, optC e j jsw a o src dst = .ret rc n buf := by
    intro a o src dst h _
    obtain ⟨rc, n, b, h, _⟩ := (C04_opt_compress_in_bounds e a o (j a) (jsw a) src dst).2.2
      (by intro hx; rw [hx] at h; simp at h)
    exact ⟨rc, n, b, h⟩
  refine ⟨⟨keeps_swC e jsw, keeps_swD e', tsw, ?_⟩, ⟨keeps_optC e j jsw, keeps_optD e', topt, ?_⟩,
    ⟨keeps_swC e jsw, keeps_optD e', tsw, ?_⟩, ⟨keeps_optC e j jsw, keeps_swD e', topt, ?_⟩⟩
  · intro a o src dst n buf hs hd h
    have h : sw842Compress e a (jsw a) src dst = .ret none n buf := h
    refine ⟨(C07_sw_length_contract e e a a (jsw a) (jsw a) src dst dst n n buf buf h h).1, fun a' o' dst' hd' => ?_⟩
    obtain ⟨b', h1, h2, h3⟩ := C01_sw_round_trip e e' a o' (jsw a) src dst dst' n buf (by omega) h (by omega)
    rw [exact_of_take hs hd' h2 h3, hs] at h1
    exact h1
  · intro a o src dst n buf hs hd h
    have h : optsw842Compress e a o (j a) (jsw a) src dst = .ret none n buf := h
    refine ⟨(C07_opt_length_contract e e a o a o (j a) (j a) (jsw a) (jsw a) src dst dst n n buf buf Iff.rfl h h).1,
      fun a' o' dst' hd' => ?_⟩
    obtain ⟨b', h1, h2, h3⟩ := C02_opt_round_trip_partial e e' a o a' o' (j a) (jsw a) src dst dst' n buf h
      (by omega) (.inr (by omega))
    rw [exact_of_take hs hd' h2 h3, hs] at h1
    exact h1
  · intro a o src dst n buf hs hd h
    have h : sw842Compress e a (jsw a) src dst = .ret none n buf := h
    refine ⟨(C07_sw_length_contract e e a a (jsw a) (jsw a) src dst dst n n buf buf h h).1, fun a' o' dst' hd' => ?_⟩
    obtain ⟨b', h1, h2, h3⟩ := C03_sw_then_opt e e' a a' o' (jsw a) src dst dst' n buf (by omega) h (by omega)
      (.inr (by omega))
    rw [exact_of_take hs hd' h2 h3, hs] at h1
    exact h1
  · intro a o src dst n buf hs hd h
    have h : optsw842Compress e a o (j a) (jsw a) src dst = .ret none n buf := h
    refine ⟨(C07_opt_length_contract e e a o a o (j a) (j a) (jsw a) (jsw a) src dst dst n n buf buf Iff.rfl h h).1,
      fun a' o' dst' hd' => ?_⟩
    obtain ⟨b', h1, h2, h3⟩ := C03_opt_then_sw e e' a o o' (j a) (jsw a) src dst dst' n buf (by omega) h (by omega)
    rw [exact_of_take hs hd' h2 h3, hs] at h1
    exact h1

/-! ## C36 -/

section
variable {f g : ChunkFn} (hc : ChunkContract f g) (ptr abuf ptr' abuf' : Nat) (inp : List Byte) (offset : Nat)
  (rets0 rets1 : List (Option Errno)) (sizes0 : List Nat) (buf0 : List Byte)
  (hin : offset + 2 ^ 20 ≤ inp.length) (hr0 : rets0.length = 16) (hb0 : buf0.length = 2 ^ 20)
include hc hin hr0 hb0

/-- C36: `handle_block` of the compression stream emits, for every whole block of the input, a block
of 16 chunks, each raw or compressed to at most 65512 bytes.  A chunk is stored raw exactly if the
compressor fails for it or needs more. -/
theorem C36_block_shape :
    ∃ b, compBlock (trivialChunked f) ptr abuf inp offset rets0 sizes0 buf0 = .ok b ∧ b.offset = offset ∧
      b.sizes.length = 16 ∧
      ∀ i < 16, ∃ rc n buf,
        f (ptr + offset + i * 65536) (abuf + i * 65536) ((inp.drop (offset + i * 65536)).take 65536)
            ((buf0.drop (i * 65536)).take 65536) = .ret rc n buf ∧
        b.sizes[i]? = some (if rc = none ∧ n ≤ 65512 then n else 65536) ∧ (rc = none → 0 < n) := by
  obtain ⟨b, h1, h2, -, -, hs, hh⟩ := compBlock_holds hc ptr abuf inp offset rets0 sizes0 buf0 hin hr0 hb0
  refine ⟨b, h1, h2, hh.nsizes, fun i hi => ?_⟩
  obtain ⟨rc, n, buf, h3, h4⟩ := hs i hi
  have h5 : rc = none → 0 < n := by
    intro hx
    subst hx
    exact (hc.restores _ _ _ _ _ _ (length_chunkOf (by rw [List.length_drop]; omega)) (length_chunkOf (by omega)) h3).1
  unfold chunkOf at h3
  rw [List.drop_drop] at h3
  exact ⟨rc, n, buf, h3, h4, h5⟩

/-- C36: `handle_block` of the decompression stream restores exactly the 1 MiB of input at the
offset of an emitted block and leaves the rest of the output buffer alone, whatever chunks the
compressor failed for.  For builds with `NDEBUG`; see the next theorem for the others. -/
theorem C36_block_round_trip_partial (b : Block)
    (hb : compBlock (trivialChunked f) ptr abuf inp offset rets0 sizes0 buf0 = .ok b)
    (out : List Byte) (hr1 : rets1.length = 16) (hout : offset + 2 ^ 20 ≤ out.length) :
    decompBlock true (trivialChunked g) ptr' abuf' b rets1 out =
      .ok (true, out.take offset ++ (inp.drop offset).take (2 ^ 20) ++ out.drop (offset + 2 ^ 20)) := by
  obtain ⟨b', h1, h2, h3, -, -, hh⟩ := compBlock_holds hc ptr abuf inp offset rets0 sizes0 buf0 hin hr0 hb0
  rw [hb] at h1
  cases h1
  rw [decompBlock_holds hc.gsize hh ptr' abuf' rets1 out hr1 (by omega) (by rw [h3]; decide), h2]

/-- C36 is false for builds with assertions: there, a block with a raw chunk makes the program
abort, because `Block::get_chunk` asserts that the source pointer is null just before it reads
from it.  Blocks in which all chunks are compressed are restored as in the other builds. -/
theorem C36_block_round_trip_debug (b : Block)
    (hb : compBlock (trivialChunked f) ptr abuf inp offset rets0 sizes0 buf0 = .ok b)
    (out : List Byte) (hr1 : rets1.length = 16) (hout : offset + 2 ^ 20 ≤ out.length) :
    ((∃ i < 16, b.sizes[i]? = some 65536) → decompBlock false (trivialChunked g) ptr' abuf' b rets1 out = .abort) ∧
    ((∀ i < 16, b.sizes[i]? ≠ some 65536) → decompBlock false (trivialChunked g) ptr' abuf' b rets1 out =
      .ok (true, out.take offset ++ (inp.drop offset).take (2 ^ 20) ++ out.drop (offset + 2 ^ 20))) := by
  obtain ⟨b', h1, h2, h3, -, -, hh⟩ := compBlock_holds hc ptr abuf inp offset rets0 sizes0 buf0 hin hr0 hb0
  have hrt := C36_block_round_trip_partial hc ptr abuf ptr' abuf' inp offset rets0 rets1 sizes0 buf0 hin hr0 hb0 b hb
    out hr1 hout
  rw [hb] at h1
  cases h1
  refine ⟨fun hex => decompBlock_debug_raw hh _ ptr' abuf' rets1 out hex, fun hno => ?_⟩
  rw [decompBlock_debug_comp hc.gsize hh ptr' abuf' rets1 out hr1 (by omega) (by rw [h3]; decide) hno]
  exact hrt

/-- C36: the bytes the user gets from `get_chunk` for an emitted block: for a compressed chunk a
stream from which the decompressor restores the chunk; for a raw chunk the input itself, but only
in builds with `NDEBUG`. -/
theorem C36_get_chunk (b : Block)
    (hb : compBlock (trivialChunked f) ptr abuf inp offset rets0 sizes0 buf0 = .ok b) (i : Nat) (hi : i < 16) :
    (b.sizes[i]? = some 65536 ∧ b.getChunk false i = .abort ∧
      ∃ p, b.getChunk true i = .ok (some p) ∧ p.take 65536 = (inp.drop (offset + i * 65536)).take 65536) ∨
    (∃ n p, b.sizes[i]? = some n ∧ n ≤ 65512 ∧ n ≤ p.length ∧ (∀ nd, b.getChunk nd i = .ok (some p)) ∧
      ∀ a o dst, dst.length = 65536 →
        g a o (p.take n) dst = .ret none 65536 ((inp.drop (offset + i * 65536)).take 65536)) := by
  obtain ⟨b', h1, h2, h3, h4, -, hh⟩ := compBlock_holds hc ptr abuf inp offset rets0 sizes0 buf0 hin hr0 hb0
  rw [hb] at h1
  cases h1
  have hck : chunkOf ((inp.drop offset).take (2 ^ 20)) i = (inp.drop (offset + i * 65536)).take 65536 := by
    unfold chunkOf
    rw [List.drop_take, List.take_take, Nat.min_eq_left (by omega), List.drop_drop]
  rcases hh.chunk i hi with hraw | ⟨n, m, hn, hp, hle, hbuf, hlm, hg⟩
  · left
    have hraw' : b.sizes[i]? = some 65536 := hraw
    have hle : i * 65536 ≤ (inp.drop offset).length := by rw [List.length_drop]; omega
    have hcs : chunkSize = 65536 := by decide
    refine ⟨hraw', ?_, (inp.drop offset).drop (i * 65536), ?_, ?_⟩
    · unfold Block.getChunk
      rw [hraw', h4]
      simp [BRes.access, bind, BRes.bind, bAssert, chunkSize]
    · unfold Block.getChunk
      rw [hraw', h4]
      simp only [BRes.access, bind, BRes.bind, bAssert, Bool.true_or, if_true]
      rw [if_neg (by decide), if_pos (show 65536 = chunkSize from rfl), hcs]
      exact ptrAdd_some hle
    · rw [List.drop_drop]
  · right
    rw [hck] at hg
    rw [h3] at hg hlm
    refine ⟨n, m.drop (i * 65536), hn, hle, by rw [List.length_drop]; omega, fun nd => ?_, hg⟩
    have h65 : i * 65536 ≤ m.length := Nat.le_trans (Nat.le_add_right _ n) hlm
    have hne : ¬ n = 65536 := by omega
    have hn0 : ¬ n = 0 := by omega
    have hcs : chunkSize = 65536 := by decide
    unfold Block.getChunk
    rw [hn, hbuf, h3]
    simp only [BRes.access, bind, BRes.bind]
    rw [if_neg hn0, if_neg (hcs ▸ hne)]
    exact ptrAdd_some h65

end

/-- The hypotheses are met: the second block of 3 MiB of zeros, with the optimized codec. -/
example : ∃ b, compBlock (trivialChunked (optC .little (fun _ => ojunk0) fun _ => junk0)) 4096 8192
      (List.replicate (3 * 2 ^ 20) 0) (2 ^ 20) (List.replicate 16 none) [] (List.replicate (2 ^ 20) 0xaa) = .ok b ∧
    ∀ out : List Byte, 2 ^ 21 ≤ out.length →
      decompBlock true (trivialChunked (optD .little)) 0 0 b (List.replicate 16 none) out =
        .ok (true, out.take (2 ^ 20) ++ List.replicate (2 ^ 20) 0 ++ out.drop (2 ^ 20 + 2 ^ 20)) := by
  have hc := (C36_contracts .little .little (fun _ => ojunk0) fun _ => junk0).2.1
  have hin : 2 ^ 20 + 2 ^ 20 ≤ (List.replicate (3 * 2 ^ 20) (0 : Byte)).length := by
    rw [List.length_replicate]; omega
  obtain ⟨b, hb, -⟩ := C36_block_shape hc 4096 8192 (List.replicate (3 * 2 ^ 20) 0) (2 ^ 20) (List.replicate 16 none) []
    (List.replicate (2 ^ 20) 0xaa) hin rfl List.length_replicate
  refine ⟨b, hb, fun out hout => ?_⟩
  rw [C36_block_round_trip_partial hc 4096 8192 0 0 _ _ _ _ _ _ hin rfl List.length_replicate b hb out rfl (by omega)]
  rw [List.drop_replicate, List.take_replicate, Nat.min_eq_left (by omega)]

/-- A compressor that always fails meets the contract too: all chunks are stored raw. -/
example : ChunkContract (fun _ _ _ dst => .ret (some .ENOSPC) 0 dst) (swD .little) :=
  ⟨by intro _ _ _ _ _ _ _ h; cases h; rfl, keeps_swD _, fun _ _ _ _ _ _ => ⟨_, _, _, rfl⟩,
    by intro _ _ _ _ _ _ _ _ h; cases h⟩

/-- C36 for builds with assertions, refuted: with that compressor the decompression aborts. -/
theorem C36_debug_false :
    ∃ f g, ChunkContract f g ∧ ∃ b, compBlock (trivialChunked f) 0 0 (List.replicate (2 ^ 20) 0) 0
        (List.replicate 16 none) [] (List.replicate (2 ^ 20) 0) = .ok b ∧
      decompBlock false (trivialChunked g) 0 0 b (List.replicate 16 none) (List.replicate (2 ^ 20) 0) = .abort := by
  have hc : ChunkContract (fun _ _ _ dst => .ret (some .ENOSPC) 0 dst) (swD .little) :=
    ⟨by intro _ _ _ _ _ _ _ h; cases h; rfl, keeps_swD _, fun _ _ _ _ _ _ => ⟨_, _, _, rfl⟩,
      by intro _ _ _ _ _ _ _ _ h; cases h⟩
  have hl : 0 + 2 ^ 20 ≤ (List.replicate (2 ^ 20) (0 : Byte)).length := by rw [List.length_replicate, Nat.zero_add]
  obtain ⟨b, h1, h2, -, -, hs, hh⟩ := compBlock_holds hc 0 0 (List.replicate (2 ^ 20) 0) 0 (List.replicate 16 none) []
    (List.replicate (2 ^ 20) 0) hl rfl List.length_replicate
  refine ⟨_, _, hc, b, h1, ?_⟩
  refine (C36_block_round_trip_debug hc 0 0 0 0 _ _ _ (List.replicate 16 none) _ _ hl rfl List.length_replicate b h1
    _ rfl hl).1 ⟨0, by decide, ?_⟩
  obtain ⟨rc, n, buf, h3, h4⟩ := hs 0 (by decide)
  cases h3
  simpa using h4

/-! ## C38 -/

/-- C38: with the trivial chunked functions of the software implementations (and of AIX),
`handle_block` of the decompression stream never returns `false`, whatever the block contains, so
that the finalize callback is never called with `false`. -/
theorem C38_never_reports {g : ChunkFn} (nd : Bool) (ptr abuf : Nat) (b : Block) (rets0 : List (Option Errno))
    (out out' : List Byte) (r : Bool) (h : decompBlock nd (trivialChunked g) ptr abuf b rets0 out = .ok (r, out')) :
    r = true := by
  obtain ⟨ilens, o1, s, _, _, _, ⟨_, e, h3 | h3⟩ | ⟨h3, _⟩⟩ := decompBlock_ok h
  · exact absurd h3 (chunked_no_err _ _ _ _ _ _ _ _ _).1
  · exact absurd h3 (chunked_no_err _ _ _ _ _ _ _ _ _).2
  · exact h3

theorem not_decodes_short (x : Byte) : ¬ ∃ d, Decodes [x] d := by
  rintro ⟨d, ops, rest, _, h⟩
  have := congrArg List.length h
  simp only [trailer, List.length_append, length_bytesBits, length_bitsOf, List.length_singleton] at this
  omega

/-- The block of the counterexample: one chunk, of one byte. -/
def corruptBlock : Block := ⟨0, 65536, none, 1 :: List.replicate 15 0, some [0]⟩

/-- C38 is false in builds with `NDEBUG`: the only chunk of a block is not an 842 stream at all,
yet `handle_block` returns `true`, for which there is an execution of the stream that ends with
the finalize callback being told of success. -/
theorem C38_reports_corrupt_data_false :
    (¬ ∃ d, Decodes [0] d) ∧
    (∀ p nd, corruptBlock.getChunk nd 0 = .ok (some p) → p.take 1 = [0]) ∧
    (∀ (e : Endian) (ptr abuf : Nat) (rets0 : List (Option Errno)) (out : List Byte), rets0.length = 16 →
      2 ^ 20 ≤ out.length →
      ∃ out', decompBlock true (trivialChunked (swD e)) ptr abuf corruptBlock rets0 out = .ok (true, out')) ∧
    ∃ s : DS 1, DReach s ∧
      s.log = [.finalized true, .finalize false, .ended 0 true, .begin 0, .push 0, .start] := by
  refine ⟨not_decodes_short 0, ?_, ?_, ?_⟩
  · intro p nd h
    have : corruptBlock.getChunk nd 0 = .ok (some [0]) := by cases nd <;> decide
    rw [this] at h
    cases h
    rfl
  · intro e ptr abuf rets0 out hr hl
    refine decompBlock_total (keeps_swD e) ptr abuf rets0 out hr (by show 0 + 2 ^ 20 ≤ out.length; omega) (by decide) ?_
    intro i hi
    by_cases h0 : i = 0
    · subst h0
      refine ⟨1, rfl, by decide, fun _ => ⟨by decide, fun a o dst _ => ?_⟩⟩
      show ∃ rc n' buf', sw842Decompress e o [0] dst = .ret rc n' buf'
      have h1 : sw842Decompress e o [0] dst ≠ .ub := by
        rw [ne_eq, C05_sw_decompress_memory_safe_partial]
        rintro ⟨ops, o', n, R, _, h, _⟩
        have := congrArg List.length h
        simp only [Op.bits, List.length_append, length_bytesBits, length_bitsOf, List.length_singleton] at this
        omega
      have h2 := (C09_sw_decompress_terminates e o 100 [0] dst (by decide))
      cases hc : sw842Decompress e o [0] dst with
      | ub => exact absurd hc h1
      | timeout => exact absurd (h2.2.trans hc) h2.1
      | ret rc n b => exact ⟨_, _, _, rfl⟩
    · refine ⟨0, ?_, by decide, fun h => absurd rfl h⟩
      show (1 :: List.replicate 15 0)[i]? = some 0
      obtain ⟨i, rfl⟩ : ∃ k, i = k + 1 := ⟨i - 1, by omega⟩
      rw [List.getElem?_cons_succ, List.getElem?_replicate, if_pos (by omega)]
  · have h : ((DS.init 1).acts (.start :: [.go 0, .go 0, .go 0, .push 0 (some 0), .go 0, .go 0, .go 0, .fin false] ++
        List.replicate 6 (.go 0))).map (·.log) =
        some [.finalized true, .finalize false, .ended 0 true, .begin 0, .push 0, .start] := by decide +kernel
    cases ha : (DS.init 1).acts (.start :: [.go 0, .go 0, .go 0, .push 0 (some 0), .go 0, .go 0, .go 0, .fin false] ++
        List.replicate 6 (.go 0)) with
    | none => rw [ha] at h; cases h
    | some s =>
      rw [ha] at h
      exact ⟨s, dacts_reach .init ha, by simpa using h⟩

/-- C38, what does hold, 1: an error code returned by the chunked function of the implementation
makes `handle_block` return `false`, and nothing else does; by `C34_decomp_finalize_callback` the
finalize callback is then told of the failure.  Missing: the error codes of single chunks, which
the trivial chunked functions do not return. -/
theorem C38_reports_partial {nd : Bool} {dc : ChunkedFn} {ptr abuf : Nat} {b : Block} {rets0 : List (Option Errno)}
    {out out' : List Byte} {r : Bool} (h : decompBlock nd dc ptr abuf b rets0 out = .ok (r, out')) :
    ∃ ilens dst,
      (r = false ↔ ∃ e s, dc abuf (ptr + b.offset) 16 b.padding 65536 (b.buf.getD []) ilens
          ⟨rets0, dst, List.replicate 16 65536⟩ = .err e s ∨
        dc abuf (ptr + b.offset) 16 b.padding 65536 (b.buf.getD []) ilens
          ⟨rets0, dst, List.replicate 16 65536⟩ = .ok (some e) s) := by
  obtain ⟨ilens, o1, s, _, _, _, h3⟩ := decompBlock_ok h
  refine ⟨ilens, o1.drop b.offset, ?_⟩
  rcases h3 with ⟨h3, e, h4⟩ | ⟨h3, h4, _⟩
  · exact ⟨fun _ => ⟨e, s, h4⟩, fun _ => h3⟩
  · rw [h3, h4]
    exact ⟨fun h => (by cases h), fun ⟨_, _, h⟩ => by rcases h with h | h <;> cases h⟩

/-- C38, what does hold, 2: in builds with assertions `handle_block` returns (then `true`) only if
all chunks that are present have been decompressed to 64 KiB each; otherwise the program aborts. -/
theorem C38_debug_partial {g : ChunkFn} (hk : KeepsSize g) {ptr abuf : Nat} {b : Block} {rets0 : List (Option Errno)}
    {out out' : List Byte} {r : Bool} (hr : rets0.length = 16) (hpad : 15 * b.padding < 2 ^ 32)
    (h : decompBlock false (trivialChunked g) ptr abuf b rets0 out = .ok (r, out')) :
    ∀ i < 16, b.sizes[i]? = some 0 ∨
      ∃ n m a o dst buf, b.sizes[i]? = some n ∧ b.buf = some m ∧
        g a o ((m.drop (i * b.padding)).take n) dst = .ret none 65536 buf ∧
        (out'.drop (b.offset + i * 65536)).take 65536 = buf := by
  obtain ⟨ilens, o1, s, hp, hle, hout, ⟨_, e, h3 | h3⟩ | ⟨_, h3, hasrt⟩⟩ := decompBlock_ok h
  · exact absurd h3 (chunked_no_err _ _ _ _ _ _ _ _ _).1
  · exact absurd h3 (chunked_no_err _ _ _ _ _ _ _ _ _).2
  intro i hi
  obtain ⟨p1, p2, p3⟩ := prepLoop_debug_ok _ hp
  subst p1 p2
  obtain ⟨n, hn, hn1⟩ := p3 i (List.mem_range.2 hi)
  by_cases h0 : n = 0
  · left; rw [hn, h0]
  right
  have hks := keepsSize_shift hk abuf (ptr + b.offset)
  have hrep : ∀ i < 16, (List.replicate 16 65536)[i]? = some 65536 := by
    intro i hi; rw [List.getElem?_replicate, if_pos hi]
  have hsucc := ((C29_chunked_partial _ hks 16 b.padding 65536 _ _ _ _ none (by decide)
    (by show 16 ≤ rets0.length; omega) (by omega) (by decide)).1 h3).2
  have hil : ilenOf b i = n := by
    simp only [ilenOf, hn]
    rw [if_neg (by omega)]
  have hns : n ≠ 2 ^ 64 - 1 := by omega
  have hget : ((List.range 16).map (ilenOf b))[i]? = some n := by
    rw [List.getElem?_map, List.getElem?_range hi, Option.map_some, hil]
  have hiso := (C31_isolation _ hks _ _ _ _ _ _ _ hsucc (by show 16 ≤ rets0.length; omega) (by
    intro i hi i' hi' hne ol ol' hol hol' _ _
    rw [hrep i hi] at hol
    rw [hrep i' hi'] at hol'
    cases hol; cases hol'
    omega) i hi).2 n 65536 hget hns (hrep i hi)
  obtain ⟨rc, n', buf, q1, q2, q3, q4⟩ := hiso
  have ha := hasrt rfl
  rw [Bool.and_eq_true, List.all_eq_true, List.all_eq_true] at ha
  have hrc : rc = none := by simpa using ha.1 rc (List.mem_of_getElem? q2)
  have hn' : n' = 65536 := by simpa using ha.2 n' (List.mem_of_getElem? q3)
  subst hrc hn'
  cases hbuf : b.buf with
  | none =>
    -- a null pointer is not read
    exfalso
    rw [hbuf] at hsucc
    have : ∀ k s1 s2, Successive (fun so d => g (abuf + so) (ptr + b.offset + d)) (none.getD [])
        ((List.range 16).map (ilenOf b)) (fun i => i * b.padding) (fun i => i * 65536) k s1 s2 → i < k → False := by
      intro k s1 s2 hs
      induction hs with
      | zero => intro h; omega
      | @succ k s1 s2 s3 _ hst ih =>
        intro hlt
        by_cases hik : i = k
        · subst hik
          cases hst with
          | skip hx => rw [hget] at hx; cases hx; omega
          | call hil' _ hin =>
            rw [hget] at hil'
            cases hil'
            simp at hin
            omega
        · exact ih (by omega)
    exact this 16 _ _ hsucc hi
  | some m =>
    rw [hbuf] at q1
    refine ⟨n, m, _, _, _, buf, hn, rfl, q1, ?_⟩
    have htl : (o1.take b.offset).length = b.offset := by rw [List.length_take]; omega
    have : (o1.take b.offset ++ s.out).drop b.offset = s.out := by
      rw [List.drop_append, List.drop_eq_nil_of_le (by omega), htl, Nat.sub_self]
      rfl
    rw [hout, ← List.drop_drop, this]
    exact q4

end Lib842.Props
