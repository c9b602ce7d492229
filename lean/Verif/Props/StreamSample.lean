import Verif.Proofs.StreamSample3
import Verif.Props.Sample
/-!
# C68: the sample program with streams

Every interleaving of the main thread and of the threads of both streams.
-/

namespace Lib842.Props
open Lib842 Spec

variable {N N' : Nat} {f g : ChunkFn}

section
variable (hc : ChunkContract f g) (inp : List Byte) (blk : Nat → Block) (nd : Bool)
  (hlen : inp.length < 2 ^ 63) (hblk : BlocksOf f inp blk)
  (hnd : nd = true ∨ ∀ o, o % blockSize = 0 → o + blockSize ≤ inp.length → ∀ i < 16, (blk o).sizes[i]? ≠ some 65536)

include hc hlen hblk hnd in
theorem shyp : SHyp ⟨inp, blk, nd, trivialChunked g⟩ f g := ⟨hc, rfl, hlen, hblk, hnd⟩

include hc hlen hblk hnd in
/-- C68: when `compress_benchmark_core` returns, it returns `true` exactly if the input consists of
whole blocks of 1 MiB.  The whole blocks have been decompressed to what they were (the rest of the
buffer is still zero), and the length reported is the sum of the compressed sizes. -/
theorem C68_result {s : SS N N'} (h : SReach ⟨inp, blk, nd, trivialChunked g⟩ s) {r : Bool} (hr : s.pc = .done r) :
    (r = true ↔ inp.length % 2 ^ 20 = 0) ∧
    s.mem = inp.take (inp.length / 2 ^ 20 * 2 ^ 20) ++ List.replicate (inp.length % 2 ^ 20) 0 ∧
    (r = true → s.mem = inp) ∧
    s.olen = some ((List.range (inp.length / 2 ^ 20)).map fun k => (blk (k * 2 ^ 20)).sizes.sum).sum := by
  have hb : blockSize = 2 ^ 20 := rfl
  have hi := sreach_inv (shyp hc inp blk nd hlen hblk hnd) h
  have hr' := hi.p1.2.2 r hr
  have hm := (hi.di.dd (hi.di.dp (by rw [hr]; show 10 ≤ 13; decide))).1
  have ho := hi.p3 (by rw [hr]; show 6 ≤ 13; decide)
  have hp := CFin.perm hi.ci (hi.cdone (by rw [hr]; show 4 ≤ 13; decide))
  have h1 : r = true ↔ inp.length % 2 ^ 20 = 0 := by rw [hr', decide_eq_true_iff]; exact Iff.rfl
  refine ⟨h1, ?_, fun hx => ?_, ?_⟩
  · rw [hm]
    show inp.take (inp.length / blockSize * blockSize) ++ (List.replicate inp.length (0 : Byte)).drop (inp.length / blockSize * blockSize) = _
    rw [List.drop_replicate, hb, ← Nat.mod_eq_sub_div_mul]
  · rw [hm]
    exact sTarget_whole (c := ⟨inp, blk, nd, trivialChunked g⟩) (h1.1 hx)
  · rw [ho, hi.ci.bl, List.map_map]
    refine congrArg some ?_
    have h2 : ((offsets (curOp s.cs.log)).reverse.map ((fun b : Block => b.sizes.sum) ∘ blk)).Perm
        (((List.range (inp.length / blockSize)).map (· * blockSize)).map ((fun b : Block => b.sizes.sum) ∘ blk)) :=
      ((List.reverse_perm _).trans hp).map _
    have h3 := h2.sum_nat
    rw [List.map_map] at h3
    exact h3

include hc hlen hblk hnd in
/-- C68: the program ends, whatever the schedule: from every reachable state, as long as the main
thread has not returned, some thread can do a step, and there is no infinite execution (not
counting spurious wakeups). -/
theorem C68_terminates (hN : 0 < N) (hN' : 0 < N') {s : SS N N'} (h : SReach ⟨inp, blk, nd, trivialChunked g⟩ s) :
    Inevitable (SStep ⟨inp, blk, nd, trivialChunked g⟩) (fun s => ∃ r, s.pc = .done r) s :=
  SInv.ends (shyp hc inp blk nd hlen hblk hnd) hN hN' _ s (sreach_inv (shyp hc inp blk nd hlen hblk hnd) h) rfl

include hc hlen hblk hnd in
/-- C68: when the function returns, no thread of the streams is left: nobody uses its local
variables any more. -/
theorem C68_joined {s : SS N N'} (h : SReach ⟨inp, blk, nd, trivialChunked g⟩ s) {r : Bool} (hr : s.pc = .done r) :
    (∀ t, (s.cs.thr t).pc = .done) ∧ ∀ t, (s.ds.thr t).pc = .done := by
  have := joined (shyp hc inp blk nd hlen hblk hnd) h
  exact ⟨this.1 (by rw [hr]; show 6 ≤ 13; decide), this.2 (by rw [hr]; show 12 ≤ 13; decide)⟩
end

/-- C68 is false as far as data races are concerned: whatever the input (of at least one block), whatever the number of
threads, there is an execution in which the main thread is about to write `comp_error` in line 170, without the
mutex, while a thread of the stream is about to read it in the callback. -/
theorem C68_race_false (hc : ChunkContract f g) (inp : List Byte) (blk : Nat → Block) (nd : Bool) (hN : 0 < N)
    (hlen : inp.length < 2 ^ 63) (hge : 2 ^ 20 ≤ inp.length) (hblk : BlocksOf f inp blk) :
    ∃ s : SS N N', SReach ⟨inp, blk, nd, trivialChunked g⟩ s ∧ CerrRace s := by
  have hoff : (blk 0).offset ≠ SIZE_MAX := by
    obtain ⟨ptr, abuf, rets0, sizes0, buf0, q1, q2, q3⟩ := hblk 0 rfl (by show 0 + 2 ^ 20 ≤ _; omega)
    obtain ⟨b, e1, e2, _⟩ := compBlock_holds hc ptr abuf inp 0 rets0 sizes0 buf0 (by show 0 + 2 ^ 20 ≤ _; omega) q1 q2
    rw [q3] at e1
    cases e1
    rw [e2]
    decide
  have hne : numEpochs (setEpoch 0) 0 inp.length 0 = 0 := by
    rw [show setEpoch 0 = none by decide +kernel]; rfl
  let t : Fin N := ⟨0, hN⟩
  have r0 : SReach ⟨inp, blk, nd, trivialChunked g⟩ (SS.init ⟨inp, blk, nd, trivialChunked g⟩ : SS N N') := .init
  have r1 := SReach.main r0 (.cStart rfl (.start (size := inp.length) rfl (.inl rfl) hlen) rfl)
  have r2 := SReach.work r1 (.comp (.topGo (t := t) rfl rfl) ⟨nofun, nofun⟩ rfl)
  have r3 := SReach.work r2 (.comp (.trigGo (t := t) (by simp [CS.setPc, CS.setThr]) (.inl (by simp [CS.setPc, CS.setThr, SS.init, CS.init, CThr.wake]))) ⟨by simp [CS.setPc, CS.setThr], by simp [CS.setPc, CS.setThr]⟩ rfl)
  have r4 := SReach.work r3 (.comp (.enter (t := t) (by simp [CS.setPc, CS.setThr])) ⟨by simp [CS.setPc, CS.setThr], by simp [CS.setPc, CS.setThr]⟩ rfl)
  have r5 := SReach.work r4 (.comp (.fetch (t := t) (by simp [CS.setPc, CS.setThr])) ⟨by simp [CS.setPc, CS.setThr], by simp [CS.setPc, CS.setThr]⟩ rfl)
  have r6 := SReach.work r5 (.comp (.epochEnd (t := t) (by simp [CS.setPc, CS.setThr, SS.init, CS.init, hne])) ⟨by simp [CS.setPc, CS.setThr], by simp [CS.setPc, CS.setThr]⟩ rfl)
  have hv : ¬ inp.length - inp.length % blockSize ≤ 0 := by
    show ¬ inp.length - inp.length % 2 ^ 20 ≤ 0
    have := Nat.mod_lt inp.length (show 0 < 2 ^ 20 by decide)
    omega
  have r7 := SReach.work r6 (.comp (.handleOk (t := t) (by simp [CS.setPc, CS.setThr, SS.init, CS.init, hv])) ⟨by simp [CS.setPc, CS.setThr, SS.init, CS.init, hoff], by simp [CS.setPc, CS.setThr]⟩ rfl)
  exact ⟨_, r7, rfl, t, true, by simp [CS.setPc, CS.setThr]⟩

/-- Something inevitable is possible. -/
theorem Inevitable.possible {α : Type} {R : α → α → Prop} {P Q : α → Prop} {a : α} (hQ : ∀ a b, Q a → R a b → Q b) (h : Inevitable R P a) (ha : Q a) :
    ∃ b, Q b ∧ P b := by
  induction h with
  | now h => exact ⟨_, ha, h⟩
  | later hex _ ih =>
    obtain ⟨b, hb⟩ := hex
    exact ih b hb (hQ _ _ ha hb)

theorem nextMultiple_block {n : Nat} (h : n < 2 ^ 63) :
    nextMultipleOfChunkSize n 1048576 = (n + 1048575) / 1048576 * 1048576 := by
  unfold nextMultipleOfChunkSize
  have h1 : (BitVec.ofNat 64 1048576 - 1) = 1048575#64 := by decide
  rw [h1]
  have h2 : ∀ x : BitVec 64, x &&& ~~~1048575#64 = (x >>> 20) <<< 20 := by
    intro x
    apply BitVec.eq_of_getLsbD_eq
    intro i hi
    have hm : (1048575#64).getLsbD i = decide (i < 20) := by
      have : 1048575#64 = BitVec.ofNat 64 (2 ^ 20 - 1) := by decide
      rw [this, BitVec.getLsbD_ofNat, Nat.testBit_two_pow_sub_one]
      simp [hi]
    rw [BitVec.getLsbD_and, BitVec.getLsbD_not, hm, BitVec.getLsbD_shiftLeft, BitVec.getLsbD_ushiftRight]
    by_cases h16 : i < 20
    · simp [h16]
    · simp [h16, hi, show 20 + (i - 20) = i by omega]
  rw [h2, BitVec.toNat_shiftLeft, BitVec.toNat_ushiftRight, BitVec.toNat_add, BitVec.toNat_ofNat, BitVec.toNat_ofNat,
    Nat.shiftLeft_eq, Nat.shiftRight_eq_div_pow]
  omega

theorem exists_blocks (hc : ChunkContract f g) (inp : List Byte) : ∃ blk, BlocksOf f inp blk := by
  have : ∀ o, ∃ b, o % blockSize = 0 → o + blockSize ≤ inp.length → ∃ ptr abuf rets0 sizes0 buf0, rets0.length = 16 ∧
      buf0.length = 2 ^ 20 ∧ compBlock (trivialChunked f) ptr abuf inp o rets0 sizes0 buf0 = .ok b := by
    intro o
    by_cases h : o + blockSize ≤ inp.length
    · obtain ⟨b, e1, -⟩ := compBlock_holds hc 0 0 inp o (List.replicate 16 none) (List.replicate 16 0) (List.replicate (2 ^ 20) 0) h
        List.length_replicate List.length_replicate
      exact ⟨b, fun _ _ => ⟨_, _, _, _, _, List.length_replicate, List.length_replicate, e1⟩⟩
    · exact ⟨⟨0, 0, none, [], none⟩, fun _ h' => absurd h' h⟩
  choose blk hb using this
  exact ⟨blk, hb⟩
theorem streamsRun_ok (hc : ChunkContract f g) (hc2 : RoomyContract f g (2 ^ 20)) {T : Nat} (hT : 0 < T) (inp : List Byte)
    (hl : inp.length = 32 ∨ ∃ k, 0 < k ∧ inp.length = k * 2 ^ 20) (hlen : inp.length < 2 ^ 63) (r : Bool) :
    StreamsRun f g T true inp r ↔ r = true := by
  unfold StreamsRun
  by_cases hgt : inp.length > blockSize
  · rw [if_pos hgt]
    obtain ⟨k, -, hk⟩ : ∃ k, 0 < k ∧ inp.length = k * 2 ^ 20 := by
      rcases hl with hl | hl
      · exact absurd hgt (by rw [hl]; decide)
      · exact hl
    have hmod : inp.length % 2 ^ 20 = 0 := by rw [hk, Nat.mul_mod_left]
    constructor
    · rintro ⟨blk, hblk, s, hs, hd⟩
      exact (C68_result hc inp blk true hlen hblk (.inl rfl) hs hd).1.2 hmod
    · rintro rfl
      obtain ⟨blk, hblk⟩ := exists_blocks hc inp
      obtain ⟨s, hs, r, hr⟩ := Inevitable.possible (Q := fun s => SReach _ s) (fun a b h1 h2 => h2.elim (.work h1) (.main h1))
        (C68_terminates (N := T) (N' := T) hc inp blk true hlen hblk (.inl rfl) hT hT .init) .init
      refine ⟨blk, hblk, s, hs, ?_⟩
      rw [hr, (C68_result hc inp blk true hlen hblk (.inl rfl) hs hr).1.2 hmod]
  · rw [if_neg hgt]
    have hle : inp.length = 32 ∨ inp.length = 2 ^ 20 := by
      rcases hl with hl | ⟨k, h0, hk⟩
      · exact .inl hl
      · right
        have h1 : ¬ inp.length > 2 ^ 20 := hgt
        have h2 : 1 * 2 ^ 20 ≤ k * 2 ^ 20 := Nat.mul_le_mul_right _ h0
        rw [Nat.one_mul] at h2
        omega
    constructor
    · rintro ⟨ain, aout, adec, pref, d, h⟩
      rw [simpleTest_ok hc2 ain aout adec pref inp hle] at h
      cases h; rfl
    · rintro rfl
      exact ⟨0, 0, 0, 1, inp, simpleTest_ok hc2 0 0 0 1 inp hle⟩

/-- The sample built with the serial and with the optimized implementation -/
def streamImpls (e : Endian) (j : Nat → OptJunk) (jsw : Nat → CompJunk) : List (ChunkFn × ChunkFn) :=
  [(swC e jsw, swD e), (optC e j jsw, optD e)]

theorem streams_aux {e : Endian} {j : Nat → OptJunk} {jsw : Nat → CompJunk} (h : (f, g) ∈ streamImpls e j jsw) :
    ChunkContract f g ∧ RoomyContract f g (2 ^ 20) := by
  obtain ⟨h1, h2, -, -⟩ := C36_contracts e e j jsw
  rcases List.mem_cons.1 h with h | h
  · cases h
    exact ⟨h1, roomy_sw e e jsw _ (.inr rfl)⟩
  · rcases List.mem_cons.1 h with h | h
    · cases h
      exact ⟨h2, roomy_opt e e j jsw _ (.inr rfl)⟩
    · cases h

/-- C68: run on any readable file that is not empty, with any number of threads, the program (compiled with
`NDEBUG`) ends with `EXIT_SUCCESS`, in every execution; executions that end exist (with
`C68_terminates`: all of them end). -/
theorem C68_program_partial (e : Endian) (j : Nat → OptJunk) (jsw : Nat → CompJunk) (himpl : (f, g) ∈ streamImpls e j jsw)
    {T : Nat} (hT : 0 < T) (file : List Byte) (hne : file ≠ []) (hlen : file.length < 2 ^ 62) (r : Bool) :
    StreamsExit f g T true (some (some file)) r ↔ r = true := by
  obtain ⟨hc, hc2⟩ := streams_aux himpl
  have hm : nextMultipleOfChunkSize file.length blockSize = (file.length + 1048575) / 1048576 * 1048576 :=
    nextMultiple_block (by omega)
  have hpos : 0 < file.length := by
    cases file with
    | nil => exact absurd rfl hne
    | cons _ _ => simp
  obtain ⟨inp, hw⟩ := writeBytes_some (m := List.replicate ((file.length + 1048575) / 1048576 * 1048576) 0) (bs := file) (i := 0)
    (by rw [List.length_replicate]; omega)
  have hl : inp.length = (file.length + 1048575) / 1048576 * 1048576 := by
    rw [(writeBytes_get hw).1, List.length_replicate]
  have hrd : readFile file blockSize = .ok inp := by
    unfold readFile
    rw [hm, hw]; rfl
  have key := streamsRun_ok hc hc2 hT inp (.inr ⟨_, Nat.div_pos (by omega) (by decide), hl⟩) (by omega) r
  constructor
  · rintro (_ | ⟨hf, h⟩ | _)
    rw [hrd] at hf
    cases hf
    exact key.1 h
  · exact fun h => .file hrd (key.2 h)

/-- C68: the same without a file, when the built-in test string is used. -/
theorem C68_program_test_string (e : Endian) (j : Nat → OptJunk) (jsw : Nat → CompJunk)
    (himpl : (f, g) ∈ streamImpls e j jsw) {T : Nat} (hT : 0 < T) (r : Bool) :
    StreamsExit f g T true none r ↔ r = true := by
  obtain ⟨hc, hc2⟩ := streams_aux himpl
  have key := streamsRun_ok hc hc2 hT testString (.inl (by decide)) (by decide) r
  exact ⟨fun h => by cases h with | test h => exact key.1 h, fun h => .test (key.2 h)⟩

/-- C68 is false for an empty file: with the serial implementation the program fails. -/
theorem C68_program_empty_false (e : Endian) (jsw : Nat → CompJunk) (T : Nat) (nd : Bool) :
    StreamsExit (swC e jsw) (swD e) T nd (some (some [])) false := by
  have hrd : readFile [] blockSize = .ok [] := by decide
  refine .file hrd ?_
  unfold StreamsRun
  rw [if_neg (by decide)]
  have hf : ∃ b, swC e jsw 0 0 [] [] = .ret (some .ENOSPC) 0 b := by
    obtain ⟨s, hs⟩ := C10_sw_capacity_exact []
    obtain ⟨b, -, hb⟩ := hs e 0 (jsw 0) []
    by_cases hx : s.length ≤ ([] : List Byte).length ∧ s.length ≤ 0xffffffff
    · rw [if_pos hx] at hb
      have h0 := (C07_sw_length_contract e e 0 0 (jsw 0) (jsw 0) [] [] [] _ _ b b hb.1 hb.1).1
      have := hx.1
      simp only [List.length_nil] at this
      omega
    · rw [if_neg hx] at hb
      exact ⟨b, hb⟩
  obtain ⟨b, hb⟩ := hf
  refine ⟨0, 0, 0, 1, [], ?_⟩
  show simpleTest (Impl.trivial (swC e jsw) (swD e) 1 1) 0 0 0 [] [] [] = _
  unfold simpleTest
  simp only [Impl.trivial, hb]

/-- The hypotheses of the theorems are met: two blocks and a half, two threads per stream. -/
example : ∃ blk, BlocksOf (optC .little (fun _ => ojunk0) fun _ => junk0) (List.replicate 2621440 0x61) blk ∧
    (∃ s : SS 2 2, SReach ⟨List.replicate 2621440 0x61, blk, true, trivialChunked (optD .little)⟩ s ∧ s.pc = .done false ∧
      s.mem = List.replicate 2097152 0x61 ++ List.replicate 524288 0) ∧
    ∃ s : SS 2 2, SReach ⟨List.replicate 2621440 0x61, blk, true, trivialChunked (optD .little)⟩ s ∧ CerrRace s := by
  have hc := (C36_contracts .little .little (fun _ => ojunk0) fun _ => junk0).2.1
  obtain ⟨blk, hblk⟩ := exists_blocks hc (List.replicate 2621440 0x61)
  have hlen : (List.replicate 2621440 (0x61 : Byte)).length < 2 ^ 63 := by rw [List.length_replicate]; decide
  obtain ⟨s, hs, r, hr⟩ := Inevitable.possible (Q := fun s => SReach _ s) (fun a b h1 h2 => h2.elim (.work h1) (.main h1))
    (C68_terminates (N := 2) (N' := 2) hc _ blk true hlen hblk (.inl rfl) (by decide) (by decide) .init) .init
  have h := C68_result hc _ blk true hlen hblk (.inl rfl) hs hr
  refine ⟨blk, hblk, ⟨s, hs, ?_, ?_⟩, C68_race_false hc _ blk true (by decide) hlen (by rw [List.length_replicate]; decide) hblk⟩
  · cases r with
    | false => exact hr
    | true =>
      have := h.1.1 rfl
      rw [List.length_replicate] at this
      exact absurd this (by decide)
  · rw [h.2.1, List.length_replicate, List.take_replicate]
    rfl

/-- A file of 70000 bytes goes through the simple test, one of 1500000 bytes through the streams. -/
example : StreamsExit (swC .big fun _ => junk0) (swD .big) 3 true (some (some (List.replicate 70000 0x61))) true ∧
    StreamsExit (swC .big fun _ => junk0) (swD .big) 3 true (some (some (List.replicate 1500000 0x61))) true := by
  refine ⟨(C68_program_partial .big (fun _ => ojunk0) (fun _ => junk0) List.mem_cons_self (by decide) _ ?_ ?_ _).2 rfl,
    (C68_program_partial .big (fun _ => ojunk0) (fun _ => junk0) List.mem_cons_self (by decide) _ ?_ ?_ _).2 rfl⟩
  all_goals first
    | (rw [List.length_replicate]; decide)
    | (intro h; have := congrArg List.length h; rw [List.length_replicate] at this; simp at this)

end Lib842.Props
