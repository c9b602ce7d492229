import Verif.SpecAlign
import Verif.Props.Cryptodev
import Verif.Proofs.Condense
/-!
# Buffers allocated as recommended (C93)

The programs and the streams allocate buffers with `preferred_alignment`, while the implementations rely on `required_alignment`.  That no
function is called with a pointer that lacks the required alignment is expressed by a comparison: replacing the functions by others that
differ for such pointers changes nothing.
-/

namespace Lib842.Props
open Spec

theorem forEach_congr' {α : Type} {f g : Nat → α → BRes α} (h : ∀ k a, f k a = g k a) (l : List Nat) (a : α) :
    forEach f l a = forEach g l a := by
  have : f = g := funext fun k => funext fun a => h k a
  rw [this]

theorem dvd_chunk {r a k : Nat} (h : r ∣ a) (hc : r ∣ 65536) : r ∣ a + sampleChunk * k :=
  Nat.dvd_add h (Nat.dvd_trans hc (Nat.dvd_mul_right _ _))

section
variable {I J : Impl} (hagree : AgreeAligned I J) (hdiv : I.requiredAlignment ∣ I.preferredAlignment) (ain aout adec : Nat)
  (h1 : Allocated I ain) (h2 : Allocated I aout) (h3 : Allocated I adec)
include hagree hdiv h1 h2 h3

/-- C93: if the preferred alignment is a multiple of the required one, the benchmark (`compdecomp.c`) passes only pointers of the required
alignment. -/
theorem C93_bench_partial (inp : List Byte) (j : SampleJunk) (ord1 ord2 : List Nat) :
    benchCore I ain aout adec inp j ord1 ord2 = benchCore J ain aout adec inp j ord1 ord2 := by
  unfold benchCore
  rw [← hagree.req]
  split
  · rfl
  next hc =>
    have hc : I.requiredAlignment ∣ 65536 := by
      apply Nat.dvd_of_mod_eq_zero
      by_cases h : 65536 % I.requiredAlignment = 0
      · exact h
      · exact absurd ⟨by decide, h⟩ hc
    have e1 : ∀ num, compBatch I ain aout inp num j.rets1 = compBatch J ain aout inp num j.rets1 := by
      intro num
      funext k m
      have hh : ∀ n, I.compressChunked (ain + sampleChunk * k) (aout + sampleChunk * k) n sampleChunk sampleChunk =
          J.compressChunked (ain + sampleChunk * k) (aout + sampleChunk * k) n sampleChunk sampleChunk := fun n =>
        hagree.compressChunked _ _ _ _ _ (dvd_chunk (Nat.dvd_trans hdiv h1) hc) (dvd_chunk (Nat.dvd_trans hdiv h2) hc) hc hc
      unfold compBatch
      simp only [hh]
    have e2 : ∀ out sizes num, decompBatch I aout adec inp out sizes num j.rets2 = decompBatch J aout adec inp out sizes num j.rets2 := by
      intro out sizes num
      funext k m
      have hh : ∀ n, I.decompressChunked (aout + sampleChunk * k) (adec + sampleChunk * k) n sampleChunk sampleChunk =
          J.decompressChunked (aout + sampleChunk * k) (adec + sampleChunk * k) n sampleChunk sampleChunk := fun n =>
        hagree.decompressChunked _ _ _ _ _ (dvd_chunk (Nat.dvd_trans hdiv h2) hc) (dvd_chunk (Nat.dvd_trans hdiv h3) hc) hc hc
      unfold decompBatch
      simp only [hh]
    simp only [e1, e2]

/-- C93: the same for the whole program, also for files of at most one chunk. -/
theorem C93_program_partial (j : SampleJunk) (sched1 sched2 : List Nat → List Nat) (file : Option (Option (List Byte))) :
    compdecomp I ain aout adec j sched1 sched2 file = compdecomp J ain aout adec j sched1 sched2 file := by
  have hrun : ∀ inp, compdecomp.run I ain aout adec j sched1 sched2 inp = compdecomp.run J ain aout adec j sched1 sched2 inp := by
    intro inp
    unfold compdecomp.run
    split
    · simp only [C93_bench_partial hagree hdiv ain aout adec h1 h2 h3]
    · unfold simpleTest
      rw [hagree.compress _ _ (Nat.dvd_trans hdiv h1) (Nat.dvd_trans hdiv h2),
        hagree.decompress _ _ (Nat.dvd_trans hdiv h2) (Nat.dvd_trans hdiv h3)]
  unfold compdecomp
  simp only [hrun]

end

/-- C93: with `CHUNKS_PER_BATCH` 1 as well, for chunks that are a multiple of the required alignment (this is not tested then), unless they are
condensed. -/
theorem C93_single_chunks_partial {I J : Impl} (hagree : AgreeAligned I J) (hdiv : I.requiredAlignment ∣ I.preferredAlignment)
    (hc : I.requiredAlignment ∣ 65536) (v : CondEnv) (h1 : Allocated I v.ain) (h2 : Allocated I v.aout) (h3 : Allocated I v.adec)
    (inp : List Byte) : benchOne false I v inp = benchOne false J v inp := by
  have e1 : ∀ k m, compOne I v.ain v.aout inp k m = compOne J v.ain v.aout inp k m := by
    intro k m
    unfold compOne
    rw [hagree.compress _ _ (dvd_chunk (Nat.dvd_trans hdiv h1) hc) (dvd_chunk (Nat.dvd_trans hdiv h2) hc)]
  have e2 : ∀ out sizes k m, decompOne I v.aout v.adec inp out ((List.range (inp.length / sampleChunk)).map (sampleChunk * ·)) sizes k m =
      decompOne J v.aout v.adec inp out ((List.range (inp.length / sampleChunk)).map (sampleChunk * ·)) sizes k m := by
    intro out sizes k m
    unfold decompOne
    cases hp : ((List.range (inp.length / sampleChunk)).map (sampleChunk * ·))[k]? with
    | none => rfl
    | some pos =>
      have hpos : I.requiredAlignment ∣ pos := by
        obtain ⟨x, -, rfl⟩ := List.mem_map.1 (List.mem_of_getElem? hp)
        exact Nat.dvd_trans hc (Nat.dvd_mul_right _ _)
      show (BRes.ok pos).bind _ = (BRes.ok pos).bind _
      simp only [BRes.bind]
      rw [hagree.decompress _ _ (Nat.dvd_add (Nat.dvd_trans hdiv h2) hpos) (dvd_chunk (Nat.dvd_trans hdiv h3) hc)]
  unfold benchOne
  rw [forEach_congr' e1]
  simp only [fun out sizes => forEach_congr' (e2 out sizes)]
  rfl

/-- C93: the compression stream, whose constructor tests the chunk size: for data that has the required alignment, the functions of the
implementation are called with such pointers only. -/
theorem C93_comp_stream_partial {I J : Impl} (hagree : AgreeAligned I J) (hdiv : I.requiredAlignment ∣ I.preferredAlignment)
    (hc : I.requiredAlignment ∣ chunkSize) (ptr abuf : Nat) (h1 : I.requiredAlignment ∣ ptr) (h2 : Allocated I abuf) (inp : List Byte)
    (block : Nat) (rets0 : List (Option Errno)) (sizes0 : List Nat) (buf0 : List Byte) :
    compBlock I.compressChunked ptr abuf inp (block * (numChunks * chunkSize)) rets0 sizes0 buf0 =
      compBlock J.compressChunked ptr abuf inp (block * (numChunks * chunkSize)) rets0 sizes0 buf0 := by
  have ho : I.requiredAlignment ∣ ptr + block * (numChunks * chunkSize) :=
    Nat.dvd_add h1 (Nat.dvd_trans hc (Nat.dvd_trans (Nat.dvd_mul_left _ _) (Nat.dvd_mul_left _ _)))
  unfold compBlock
  rw [hagree.compressChunked _ _ _ _ _ ho (Nat.dvd_trans hdiv h2) hc hc]

/-- C93: the decompression stream, for blocks as the compression stream makes them. -/
theorem C93_decomp_stream_partial {I J : Impl} (hagree : AgreeAligned I J) (hdiv : I.requiredAlignment ∣ I.preferredAlignment)
    (hc : I.requiredAlignment ∣ chunkSize) (ndebug : Bool) (ptr abuf : Nat) (h1 : I.requiredAlignment ∣ ptr) (h2 : Allocated I abuf) (b : Block)
    (hpad : b.padding = chunkSize) (block : Nat) (hoff : b.offset = block * (numChunks * chunkSize)) (rets0 : List (Option Errno))
    (out : List Byte) :
    decompBlock ndebug I.decompressChunked ptr abuf b rets0 out = decompBlock ndebug J.decompressChunked ptr abuf b rets0 out := by
  have ho : I.requiredAlignment ∣ ptr + block * (numChunks * chunkSize) :=
    Nat.dvd_add h1 (Nat.dvd_trans hc (Nat.dvd_trans (Nat.dvd_mul_left _ _) (Nat.dvd_mul_left _ _)))
  unfold decompBlock
  rw [hpad, hoff, hagree.decompressChunked _ _ _ _ _ (Nat.dvd_trans hdiv h2) ho hc hc]

/-- An implementation that fails for every request, but does something undefined if `bad` holds for the address of a buffer. -/
def failing (req pref : Nat) (bad : Nat → Bool) : Impl :=
  ⟨fun a b _ buf => if bad a || bad b then .ub else .ret (some .EINVAL) 0 buf, fun a b _ buf => if bad a || bad b then .ub else .ret (some .EINVAL) 0 buf,
    fun a b _ _ _ _ _ s => if bad a || bad b then .ub else .ok (some .EINVAL) s,
    fun a b _ _ _ _ _ s => if bad a || bad b then .ub else .ok (some .EINVAL) s, req, pref⟩

theorem failing_agree (req pref : Nat) :
    AgreeAligned (failing req pref fun a => decide (¬ req ∣ a)) (failing req pref fun _ => false) := by
  have hd : ∀ a, req ∣ a → decide (¬ req ∣ a) = false := fun a h => by simp [h]
  constructor
  · rfl
  · rfl
  · intro a b ha hb
    change req ∣ a at ha; change req ∣ b at hb
    funext _ _; simp only [failing, hd a ha, hd b hb]
  · intro a b ha hb
    change req ∣ a at ha; change req ∣ b at hb
    funext _ _; simp only [failing, hd a ha, hd b hb]
  · intro a b _ _ _ ha hb _ _
    change req ∣ a at ha; change req ∣ b at hb
    funext _ _ _; simp only [failing, hd a ha, hd b hb]
  · intro a b _ _ _ ha hb _ _
    change req ∣ a at ha; change req ∣ b at hb
    funext _ _ _; simp only [failing, hd a ha, hd b hb]

theorem bench_failing {req pref : Nat} {bad : Nat → Bool} {inp : List Byte} (hc : req ∣ 65536) (hl : inp.length = 65536) :
    benchCore (failing req pref bad) pref pref pref inp ⟨fun _ => [], fun _ => [], [0], [0]⟩ [0] [0] =
      if bad pref then .ub else .ok ⟨false, none, List.replicate inp.length 0⟩ := by
  have hb : ∀ buf, compBatch (failing req pref bad) pref pref inp 1 (fun _ => []) 0 ⟨buf, [0], true⟩ =
      if bad pref then .ub else .ok ⟨buf, [65536], false⟩ := by
    intro buf
    unfold compBatch
    simp only [bind, BRes.bind, ptrAdd, Nat.mul_zero, Nat.zero_le, if_true, List.drop_zero, Option.getD_some, Nat.add_zero]
    have hf : fillSizes [0] 0 (batchChunks 1 0) sampleChunk = some [65536] := by decide
    rw [hf]
    simp only [BRes.access, failing, Bool.or_self]
    cases bad pref <;> simp
  unfold benchCore
  rw [if_neg (by rintro ⟨-, hx⟩; exact hx (Nat.mod_eq_zero_of_dvd hc))]
  have h1 : inp.length / sampleChunk = 1 := by rw [hl]; rfl
  simp only [h1, show ∀ f : Nat → OmpMem → BRes OmpMem, ∀ m, forEach f [0] m = (f 0 m).bind .ok from fun f m => rfl, hb]
  cases bad pref
  · simp only [bind, BRes.bind, Bool.false_eq_true, if_false, if_true]
  · rfl

/-- C93, exactly: an implementation can be sure of the alignment it requires if and only if the preferred alignment is a multiple of it. -/
theorem C93_iff (req pref : Nat) (hc : req ∣ 65536) :
    (∀ I J : Impl, AgreeAligned I J → I.requiredAlignment = req → I.preferredAlignment = pref →
      ∀ ain aout adec, Allocated I ain → Allocated I aout → Allocated I adec →
      ∀ inp j ord1 ord2, benchCore I ain aout adec inp j ord1 ord2 = benchCore J ain aout adec inp j ord1 ord2) ↔ req ∣ pref := by
  constructor
  · intro h
    by_cases hd : req ∣ pref
    · exact hd
    exfalso
    obtain ⟨inp, hl⟩ : ∃ inp : List Byte, inp.length = 65536 := ⟨List.replicate 65536 0, List.length_replicate ..⟩
    have := h _ _ (failing_agree req pref) rfl rfl pref pref pref (Nat.dvd_refl _) (Nat.dvd_refl _) (Nat.dvd_refl _)
      inp ⟨fun _ => [], fun _ => [], [0], [0]⟩ [0] [0]
    rw [bench_failing hc hl, bench_failing hc hl, if_pos (by simp [hd]), if_neg (by simp)] at this
    cases this
  · intro hd I J hag hr hp ain aout adec h1 h2 h3 inp j ord1 ord2
    exact C93_bench_partial hag (by rw [hr, hp]; exact hd) ain aout adec h1 h2 h3 inp j ord1 ord2

/-- An implementation that requires and prefers pages, calls everything 24 bytes long, and does something undefined if `bad` holds for the address of
the compressed data. -/
def crude (bad : Nat → Bool) : Impl :=
  ⟨fun _ _ _ buf => .ret none 24 buf, fun a _ _ buf => if bad a then .ub else .ret none 65536 buf,
    fun _ _ _ _ _ _ _ s => .ok (some .EINVAL) s, fun _ _ _ _ _ _ _ s => .ok (some .EINVAL) s, 4096, 4096⟩

theorem forEach_one {α : Type} (f : Nat → α → BRes α) (m : α) : forEach f [0] m = (f 0 m).bind .ok := rfl

theorem crude_comp {bad : Nat → Bool} {ain aout : Nat} {inp buf : List Byte} (hl : inp.length = 65536) (hb : buf.length = 65536) :
    compOne (crude bad) ain aout inp 0 ⟨buf, [0], true⟩ = .ok ⟨buf, [24], true⟩ := by
  unfold compOne
  have hf : fillSizes [0] 0 1 sampleChunk = some [sampleChunk] := by decide
  simp only [bind, BRes.bind, ptrAdd, Nat.mul_zero, Nat.zero_le, if_true, hf, BRes.access, List.getElem?_cons_zero]
  rw [readBytes_ok (show 0 + sampleChunk ≤ inp.length by rw [hl]; decide), readBytes_ok (show 0 + sampleChunk ≤ buf.length by rw [hb]; decide)]
  simp only [BRes.access, crude, List.drop_zero]
  rw [List.take_of_length_le (show buf.length ≤ sampleChunk by rw [hb]; decide), writeBytes_ok (by omega)]
  simp [BRes.access]

theorem crude_cond {buf cond : List Byte} (hb : buf.length = 65536) (hcl : cond.length = 24) :
    condenseChunk buf [0] [24] 0 cond = .ok (buf.take 24) := by
  unfold condenseChunk
  simp only [bind, BRes.bind, ptrAdd, Nat.mul_zero, Nat.zero_le, if_true, BRes.access, List.getElem?_cons_zero]
  rw [readBytes_ok (show 0 + 24 ≤ buf.length by omega)]
  simp only [BRes.access, List.drop_zero]
  have : (buf.take 24).length = 24 := by rw [List.length_take]; omega
  rw [writeBytes_ok (by omega)]
  simp [BRes.access, this, hcl, show cond.drop 24 = [] from List.drop_of_length_le (by omega)]

theorem crude_dec {bad : Nat → Bool} {acond adec : Nat} {inp comp buf : List Byte} (hc : comp.length = 24) (hb : buf.length = 65536) :
    decompOne (crude bad) acond adec inp comp [0] [24] 0 ⟨buf, [0], true⟩ = if bad acond then .ub else .ok ⟨buf, [65536], true⟩ := by
  unfold decompOne
  have hf : fillSizes [0] 0 1 sampleChunk = some [sampleChunk] := by decide
  simp only [bind, BRes.bind, ptrAdd, Nat.mul_zero, Nat.zero_le, if_true, hf, BRes.access, List.getElem?_cons_zero]
  rw [if_pos (by decide), readBytes_ok (show 0 + 24 ≤ comp.length by omega),
    readBytes_ok (show 0 + sampleChunk ≤ buf.length by rw [hb]; decide)]
  simp only [BRes.access, crude, List.drop_zero, Nat.add_zero]
  rw [List.take_of_length_le (show buf.length ≤ sampleChunk by rw [hb]; decide)]
  cases bad acond
  · simp only [Bool.false_eq_true, if_false]
    rw [writeBytes_ok (by omega)]
    simp [BRes.access]
  · rfl

/-- C93 fails for condensed data, whose buffer comes from `malloc` (aligned to 16 bytes, say) and whose chunks follow each other closely, also if the
preferred alignment is fine. -/
theorem C93_condense_false : ∃ (I J : Impl) (v : CondEnv) (inp : List Byte), AgreeAligned I J ∧ I.requiredAlignment ∣ I.preferredAlignment ∧
    Allocated I v.ain ∧ Allocated I v.aout ∧ Allocated I v.adec ∧ 16 ∣ v.acond ∧ I.requiredAlignment ∣ 65536 ∧
    benchOne true I v inp = .ub ∧ ∃ r, benchOne true J v inp = .ok r := by
  obtain ⟨inp, hl⟩ : ∃ inp : List Byte, inp.length = 65536 := ⟨List.replicate 65536 0, List.length_replicate ..⟩
  have h1 : inp.length / sampleChunk = 1 := by rw [hl]; rfl
  have hrun : ∀ bad : Nat → Bool, benchOne true (crude bad)
      ⟨0, 0, 16, 0, ⟨fun _ => [], fun _ => [], [0], [0]⟩, fun n => List.replicate n 0, [0], [0], [0]⟩ inp =
      if bad 16 then .ub else benchFinish inp 24 ⟨List.replicate inp.length 0, [65536], true⟩ := by
    intro bad
    unfold benchOne
    obtain ⟨b0, hb0⟩ : ∃ b0 : List Byte, b0 = List.replicate (1 * sampleChunk) 0 := ⟨_, rfl⟩
    have hb1 : b0.length = 65536 := by rw [hb0, List.length_replicate]; rfl
    simp only [h1, forEach_one, ← hb0, crude_comp hl hb1]
    simp only [bind, BRes.bind, if_true]
    rw [show condOlen [24] = 24 from by decide, show condPositions 0 [24] = [0] from by decide,
      crude_cond hb1 (List.length_replicate ..)]
    simp only [Bool.true_eq_false, if_false]
    rw [crude_dec (by rw [List.length_take]; omega) (by rw [List.length_replicate]; exact hl)]
    cases bad 16 <;> rfl
  refine ⟨crude fun a => decide (¬ 4096 ∣ a), crude fun _ => false, _, inp, ?_, ⟨1, rfl⟩, ⟨0, rfl⟩, ⟨0, rfl⟩, ⟨0, rfl⟩, ⟨1, rfl⟩, ⟨16, rfl⟩,
    (hrun _).trans (if_pos (by decide)), ?_⟩
  · constructor
    · rfl
    · rfl
    · intros; rfl
    · intro a b ha hb
      change 4096 ∣ a at ha
      simp [crude, ha]
    · intros; rfl
    · intros; rfl
  · rw [hrun, if_neg (by decide)]
    unfold benchFinish
    split
    · rename_i h; cases h
    · split <;> exact ⟨_, rfl⟩

/-- C93 for the software implementations and, negatively, for AIX. -/
theorem C93_implementations : swAlign.required ∣ swAlign.preferred ∧ optAlign.required ∣ optAlign.preferred ∧
    ¬ aixAlign.required ∣ aixAlign.preferred := by decide

/-- C93 for the hardware: it holds if and only if pages are at least as large as the alignment the driver asks for, which is taken to be 64 KiB if
the device cannot be opened. -/
theorem C93_hardware {page q : Nat} (hq : page = 2 ^ q) {info : Bool} {env : SysTr → Sys → Resp} {s s' : DevState} {tr tr' : SysTr}
    {junk : BitVec 16} {al : AlignInfo} (h : hwAlign page info junk s env tr = some ((al, s'), tr')) :
    al.preferred = page ∧ al.required ≤ 65536 ∧ ((∃ k, al.required = 2 ^ k) → (al.required ∣ al.preferred ↔ al.required ≤ page)) := by
  unfold hwAlign at h
  simp only [bind, SysM.bind] at h
  cases hr : requiredAlignment info junk s env tr with
  | none => rw [hr] at h; cases h
  | some x =>
    obtain ⟨⟨r, s1⟩, tr1⟩ := x
    rw [hr] at h
    simp only [SysM.pure, Option.some.injEq, Prod.mk.injEq] at h
    obtain ⟨⟨rfl, -⟩, -⟩ := h
    refine ⟨rfl, ?_, ?_⟩
    · unfold requiredAlignment at hr
      simp only [bind, SysM.bind] at hr
      cases hg : getThreadCtx info junk s env tr with
      | none => rw [hg] at hr; cases hr
      | some y =>
        obtain ⟨⟨g, s2⟩, tr2⟩ := y
        rw [hg] at hr
        cases g with
        | error e =>
          simp only [SysM.pure, Option.some.injEq, Prod.mk.injEq] at hr
          show r ≤ _
          omega
        | ok c =>
          simp only [SysM.pure, Option.some.injEq, Prod.mk.injEq] at hr
          have := c.alignmask.isLt
          show r ≤ _
          omega
    · rintro ⟨k, hk⟩
      change r = 2 ^ k at hk
      show r ∣ page ↔ r ≤ page
      rw [hk, hq]
      constructor
      · exact Nat.le_of_dvd (Nat.two_pow_pos q)
      · intro hle
        exact Nat.pow_dvd_pow 2 ((Nat.pow_le_pow_iff_right (by decide)).1 hle)

/-- With pages of 4 KiB: fine if the driver asks for less, not if the device cannot be opened. -/
example : ((hwAlign 4096 true 0 .init (fun tr c => match c with | .sessinfo _ _ => .ok 0xfff | c => exEnv tr c) []).map fun p => decide (p.1.1.required ∣ p.1.1.preferred)) = some true ∧
    ((hwAlign 4096 true 0 .init (fun tr c => match c with | .open => .fail 1 | c => exEnv tr c) []).map fun p => p.1.1) = some ⟨65536, 4096⟩ ∧
    ¬ (65536 ∣ 4096) := by decide

/-- Two implementations that agree on aligned pointers only. -/
example : AgreeAligned (failing 8 64 fun a => decide (¬ 8 ∣ a)) (failing 8 64 fun _ => false) ∧
    (failing 8 64 fun a => decide (¬ 8 ∣ a)).compress 4 0 [] [] ≠ (failing 8 64 fun _ => false).compress 4 0 [] [] :=
  ⟨failing_agree 8 64, by decide⟩

end Lib842.Props
