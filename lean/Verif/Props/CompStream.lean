import Verif.Proofs.CompQuit
/-!
# Properties of the compression stream

C32, C33, C34, C35.  `CReach (setEpoch E) s`: the stream, with `set_offset_sync_epoch_multiple(E)`
(0: never called) and `N` threads, can be in state `s` after some sequence of calls of `start`,
`finalize` and the destructor and some interleaving of its threads.  `s.log` is what its user has
seen, newest first.  The parts `l1` of the trace are its prefixes in time.
-/

namespace Lib842.Props
open Lib842 Spec

variable {N : Nat} {E : Nat} {s : CS N}

/-- C32: a finished operation that succeeded and was not cancelled has handed out each whole block
of its input once, and nothing else. -/
theorem C32_blocks_exactly_once (hE : EpochOk E) (h : CReach (setEpoch E) s) {l1 l2 : List Ev}
    (hl : s.log = l2 ++ l1) (hd : .destroy ∉ l1) (hf : .finalized true ∈ curOp l1)
    (hc : .finalize true ∉ curOp l1) :
    (offsets (curOp l1)).Perm ((List.range (opSize l1 / blockSize)).map (· * blockSize)) ∧
    ∀ o, .failBlock o ∉ curOp l1 := by
  have ht := creach_trace (epochSetting_of hE) h l2 l1 hl hd
  obtain ⟨t1, t2⟩ := trace_offsets ht
  obtain ⟨_, _, f3, f4, _⟩ := trace_finalized ht hf
  refine ⟨?_, fun o ho => ?_⟩
  · have hB : 0 < blockSize := by decide
    have hnd : ((List.range (opSize l1 / blockSize)).map (· * blockSize)).Nodup := by
      refine List.Nodup.map ?_ List.nodup_range
      intro a b hab
      exact Nat.eq_of_mul_eq_mul_right hB hab
    rw [List.perm_ext_iff_of_nodup t1 hnd]
    intro o
    rw [List.mem_map]
    constructor
    · intro ho
      obtain ⟨o1, o2⟩ := t2 o ho
      refine ⟨o / blockSize, List.mem_range.2 ?_, Nat.div_mul_cancel (Nat.dvd_of_mod_eq_zero o1)⟩
      unfold blockSize at *
      omega
    · rintro ⟨i, hi, rfl⟩
      rw [List.mem_range] at hi
      refine f4 rfl hc _ (Nat.mul_mod_left _ _) ?_
      unfold blockSize at *
      omega
  · have := f3.2 ⟨o, ho⟩
    cases this

/-- C32: at any time, also after an error, a cancellation or the destructor, no block of the
current operation has been handed out twice, and only whole blocks of its input have been. -/
theorem C32_at_most_once (hE : EpochOk E) (h : CReach (setEpoch E) s) :
    (offsets (curOp s.log)).Nodup ∧
    ∀ o ∈ offsets (curOp s.log), o % blockSize = 0 ∧ o + blockSize ≤ opSize s.log := by
  obtain ⟨arr, G, base, next, run, hi⟩ := creach_inv (epochSetting_of hE) h
  refine ⟨hi.b.nd, fun o ho => ?_⟩
  obtain ⟨h1, h2, _⟩ := hi.b.lt o ho
  exact ⟨h2, (vld_lt h2).1 h1⟩

/-- C32: the shared offset, a natural number in the model, stays below `2^63 + N * 2^20`; as a
64-bit number it does not wrap for fewer than `2^43` threads. -/
theorem C32_offset_bound (hE : EpochOk E) (h : CReach (setEpoch E) s) : s.cur ≤ 2 ^ 63 + N * 2 ^ 20 := by
  have h1 := offset_bound (epochSetting_of hE) h
  have h2 := past_le s
  unfold bigOffset blockSize at h1
  omega

/-- C32: the difference of epochs computed by a thread is not negative, also while the stream is being destroyed (as a 64-bit number it
would be huge, and so would be the number of barriers to wait for). -/
theorem C32_epochs_nonneg (hE : EpochOk E) (h : CReach (setEpoch E) s) {t : Fin N} (hp : (s.thr t).pc = .fetch) (j : Nat) :
    (s.thr t).lastOff / 2 ^ j ≤ min s.cur s.size / 2 ^ j := by
  have hT := qthr_reach (epochSetting_of hE) h t
  simp only [QThr, hp] at hT
  obtain ⟨arr, G, base, next, run, hi⟩ := creach_inv (epochSetting_of hE) h
  refine Nat.div_le_div_right (Nat.le_min.2 ⟨?_, hT.2⟩)
  cases hq : s.quit with
  | false =>
    have hT := (hi.n hq).thr t
    simp only [TInv, hp] at hT
    exact hT.2.2.2.2.1
  | true =>
    have h1 := (hi.q hq).cur
    have h2 := hi.b.sz
    have h3 := hi.b.osz
    omega

/-- C33: when a block at or beyond a multiple of the epoch is handed out, every block below the
multiple has been handed out, and its callback has returned.  Also in operations that are later
cancelled, or fail. -/
theorem C33_epoch_order {j : Nat} (hj : 20 ≤ j) (hj' : j < 64) (h : CReach (setEpoch (2 ^ j)) s)
    {l1 l2 : List Ev} {e : Ev} {o : Nat} (hl : s.log = l2 ++ e :: l1) (he : e = .block o ∨ e = .failBlock o)
    (hd : .destroy ∉ l1) {m o' : Nat} (hm : m * 2 ^ j ≤ o) (ho' : o' < m * 2 ^ j) (hb : o' % blockSize = 0) :
    o' ∈ offsets (curOp l1) ∧ .returned o' ∈ curOp l1 := by
  have hd' : .destroy ∉ e :: l1 := by
    rcases he with rfl | rfl <;> simpa using hd
  have ht := creach_trace (epochSetting_of (.inr ⟨j, hj, hj', rfl⟩)) h l2 (e :: l1) hl hd'
  rw [setEpoch_pow hj'] at ht
  have hlt : epochOf (some j) o' < epochOf (some j) o := by
    show o' / 2 ^ j < o / 2 ^ j
    have hp : 0 < 2 ^ j := Nat.pow_pos (by decide)
    have h1 : o' / 2 ^ j < m := (Nat.div_lt_iff_lt_mul hp).2 ho'
    have h2 : m ≤ o / 2 ^ j := (Nat.le_div_iff_mul_le hp).2 hm
    omega
  rcases he with rfl | rfl
  · exact ht.1.2.2.2.2 o' hb hlt
  · exact ht.1.2.2.2.2 o' hb hlt

/-- C34: when the finalize callback is called, `finalize` has been called for the operation, the
callback has not been called for it before, and every block callback has returned.  Its argument
is `false` exactly if a block callback signalled an error.  After it no block is handed out. -/
theorem C34_finalize_callback (hE : EpochOk E) (h : CReach (setEpoch E) s) {l1 l2 : List Ev} {ok : Bool}
    (hl : s.log = l2 ++ .finalized ok :: l1) (hd : .destroy ∉ l1) :
    (∃ c, .finalize c ∈ curOp l1) ∧ (∀ ok', .finalized ok' ∉ curOp l1) ∧
    (∀ o ∈ offsets (curOp l1), .returned o ∈ curOp l1) ∧ (ok = false ↔ ∃ o, .failBlock o ∈ curOp l1) := by
  have ht := creach_trace (epochSetting_of hE) h l2 (.finalized ok :: l1) hl (by simpa using hd)
  exact ⟨ht.1.1, ht.1.2.1, ht.1.2.2.1, ht.1.2.2.2.1⟩

theorem C34_nothing_after (hE : EpochOk E) (h : CReach (setEpoch E) s) {l1 l2 : List Ev} {e : Ev}
    (hl : s.log = l2 ++ e :: l1) (hd : .destroy ∉ e :: l1) {ok : Bool} (hf : .finalized ok ∈ curOp l1) :
    (∃ n, e = .start n) ∨ ∃ c, e = .finalize c := by
  have ht := (creach_trace (epochSetting_of hE) h l2 (e :: l1) hl hd).1
  cases e with
  | start n => exact .inl ⟨n, rfl⟩
  | finalize c => exact .inr ⟨c, rfl⟩
  | destroy => simp at hd
  | block o => exact absurd hf (ht.1 ok)
  | failBlock o => exact absurd hf (ht.1 ok)
  | returned o => exact absurd hf (ht.2 ok)
  | finalized ok' => exact absurd hf (ht.2.1 ok)

/-- C35: if no thread of a stream can do anything, all of them have ended after the destructor, or
the stream waits for its user to call `start` or `finalize`. -/
theorem C35_no_deadlock (hE : EpochOk E) (hN : 0 < N) (h : CReach (setEpoch E) s)
    (hno : ∀ t s', ¬ CWork (setEpoch E) t s s') :
    (.destroy ∈ s.log ∧ ∀ t, (s.thr t).pc = .done) ∨
    (.destroy ∉ s.log ∧ (mayStart s.log ∨ mayFinalize s.log)) := by
  obtain ⟨arr, G, base, next, run, hi⟩ := creach_inv (epochSetting_of hE) h
  have hq := creach_quit h
  rcases quiescent hi hN fun t => stuck_of hi (hno t) with ⟨h1, h2⟩ | ⟨h1, h2⟩
  · exact .inl ⟨hq.1 h1, h2⟩
  · refine .inr ⟨fun hx => ?_, h2⟩
    rw [hq.2 hx] at h1; cases h1

/-- C35: between calls of the user the threads do only finitely many steps (not counting spurious
wakeups), in any order. -/
theorem C35_terminates (hE : EpochOk E) (h : CReach (setEpoch E) s) :
    Acc (fun s' s => ∃ t, CWork (setEpoch E) t s s') s := work_acc (epochSetting_of hE) s h

theorem inevitable_of_acc {k : Option Nat} (hk : EpochSetting k) {P Q : CS N → Prop}
    (hQ : ∀ s t s', CReach k s → Q s → CWork k t s s' → Q s')
    (hP : ∀ s, CReach k s → Q s → (∀ t s', ¬ CWork k t s s') → P s) {s : CS N} (h : CReach k s) (hq : Q s) :
    Inevitable (fun s s' => ∃ t, CWork k t s s') P s := by
  have ha := work_acc hk s h
  induction ha with
  | intro s _ ih =>
    by_cases hex : ∃ s', ∃ t, CWork k t s s'
    · refine .later hex ?_
      rintro s' ⟨t, hs⟩
      exact ih s' ⟨t, hs⟩ (.work h hs) (hQ s t s' h hq hs)
    · refine .now (hP s h hq fun t s' hs => hex ⟨s', t, hs⟩)

/-- C34: after `finalize` the finalize callback is called, whatever the schedule. -/
theorem C34_finalize_happens (hE : EpochOk E) (hN : 0 < N) (h : CReach (setEpoch E) s) (hd : .destroy ∉ s.log)
    {c : Bool} (hf : .finalize c ∈ curOp s.log) :
    Inevitable (fun s s' => ∃ t, CWork (setEpoch E) t s s') (fun s' => ∃ ok, .finalized ok ∈ curOp s'.log) s := by
  refine inevitable_of_acc (epochSetting_of hE)
    (Q := fun s => .destroy ∉ s.log ∧ .finalize c ∈ curOp s.log) ?_ ?_ h ⟨hd, hf⟩
  · rintro s t s' _ ⟨h1, h2⟩ hs
    obtain ⟨_, h3 | ⟨e, h3, h4, h5, _⟩⟩ := work_log hs
    · rw [h3]; exact ⟨h1, h2⟩
    · rw [h3, curOp_cons h4]
      refine ⟨?_, List.mem_cons_of_mem _ h2⟩
      intro hx
      rcases List.mem_cons.1 hx with hx | hx
      · exact h5 hx.symm
      · exact h1 hx
  · rintro s hs ⟨h1, h2⟩ hno
    rcases C35_no_deadlock hE hN hs hno with ⟨h3, _⟩ | ⟨_, h3 | h3⟩
    · exact absurd h3 h1
    · rcases h3 with h3 | h3
      · rw [creach_started hs (List.takeWhile_subset _ h2)] at h3; cases h3
      · exact h3
    · exact absurd h2 (h3.2 c)

/-- C35: after the destructor has set `_quit` all threads end, whatever the schedule, so that it
returns from `join`. -/
theorem C35_quit (hE : EpochOk E) (hN : 0 < N) (h : CReach (setEpoch E) s) (hd : .destroy ∈ s.log) :
    Inevitable (fun s s' => ∃ t, CWork (setEpoch E) t s s') (fun s' => ∀ t, (s'.thr t).pc = .done) s := by
  refine inevitable_of_acc (epochSetting_of hE) (Q := fun s => .destroy ∈ s.log) ?_ ?_ h hd
  · intro s t s' _ h1 hs
    obtain ⟨_, h3 | ⟨e, h3, _, _⟩⟩ := work_log hs
    · rw [h3]; exact h1
    · rw [h3]; exact List.mem_cons_of_mem _ h1
  · intro s hs h1 hno
    rcases C35_no_deadlock hE hN hs hno with ⟨_, h3⟩ | ⟨h3, _⟩
    · exact h3
    · exact absurd h1 h3

/-! ## Instances -/

/-- Two threads, two blocks and five bytes, an epoch of one block. -/
def exActs : List (Act 2) :=
  .start (2 * 2 ^ 20 + 5) ::
    ([0, 1, 0, 1, 0, 1, 0, 1, 0, 1, 0, 0, 0, 0, 0, 1, 0, 1, 0, 1, 1, 1, 1, 1, 1, 0, 1, 0, 1, 0, 1, 0].map .go ++
      .fin false :: [0, 1, 0, 1, 0, 1, 0, 1, 0, 1, 0, 0, 0, 0].map .go)

def exLog : List Ev :=
  [.finalized true, .finalize false, .returned 1048576, .block 1048576, .returned 0, .block 0, .start 2097157]

theorem exActs_log : ((CS.init 2).acts (setEpoch (2 ^ 20)) exActs).map (·.log) = some exLog := by decide +kernel

theorem exReach : ∃ s : CS 2, CReach (setEpoch (2 ^ 20)) s ∧ s.log = exLog := by
  have h := exActs_log
  cases ha : (CS.init 2).acts (setEpoch (2 ^ 20)) exActs with
  | none => rw [ha] at h; cases h
  | some s =>
    rw [ha] at h
    exact ⟨s, acts_reach .init ha, by simpa using h⟩

theorem exEpoch : EpochOk (2 ^ 20) := .inr ⟨20, by decide, by decide, rfl⟩

/-- C32 and C34 speak about a finished operation. -/
example : ∃ s : CS 2, CReach (setEpoch (2 ^ 20)) s ∧ .finalized true ∈ curOp s.log ∧
    (offsets (curOp s.log)).Perm [0, 1048576] ∧ .returned 0 ∈ curOp s.log := by
  obtain ⟨s, hs, hl⟩ := exReach
  have h1 := (C32_blocks_exactly_once exEpoch hs (l1 := s.log) (l2 := []) rfl (by rw [hl]; decide)
    (by rw [hl]; decide) (by rw [hl]; decide)).1
  refine ⟨s, hs, by rw [hl]; decide, ?_, by rw [hl]; decide⟩
  rw [show opSize s.log = 2097157 by rw [hl]; decide] at h1
  exact h1

/-- C33: the second block comes after the first. -/
example : ∃ (s : CS 2) (l2 l1 : List Ev), CReach (setEpoch (2 ^ 20)) s ∧ s.log = l2 ++ .block 1048576 :: l1 ∧
    .returned 0 ∈ curOp l1 := by
  obtain ⟨s, hs, hl⟩ := exReach
  refine ⟨s, [.finalized true, .finalize false, .returned 1048576], [.returned 0, .block 0, .start 2097157],
    hs, hl, ?_⟩
  exact (C33_epoch_order (by decide) (by decide) hs (l2 := [.finalized true, .finalize false, .returned 1048576])
    hl (.inl rfl) (by decide) (m := 1) (by decide) (by decide) rfl).2

/-- C34: a stream on which `finalize` has just been called. -/
example : ∃ s : CS 2, CReach (setEpoch 0) s ∧ .finalize false ∈ curOp s.log ∧
    Inevitable (fun s s' => ∃ t, CWork (setEpoch 0) t s s') (fun s' => ∃ ok, .finalized ok ∈ curOp s'.log) s := by
  have h1 : CReach (setEpoch 0) (CS.init 2) := .init
  have h2 := CReach.user h1 (.start (size := 5000000) rfl (.inl rfl) (by decide))
  have h3 := CReach.user h2 (.finalize (cancel := false) rfl ⟨rfl, by decide⟩)
  exact ⟨_, h3, by decide, C34_finalize_happens (.inl rfl) (by decide) h3 (by decide) (c := false) (by decide)⟩

/-- C34: an operation in which a block fails. -/
theorem exFail : ((CS.init 1).acts (setEpoch 0)
    (.start (3 * 2 ^ 20) :: [.go 0, .go 0, .go 0, .go 0, .go 0, .bad 0] ++ List.replicate 6 (.go 0) ++ .fin false ::
      List.replicate 5 (.go 0))).map (·.log) =
    some [.finalized false, .finalize false, .returned 0, .failBlock 0, .start (3 * 2 ^ 20)] := by decide +kernel

/-- C35: a stream destroyed in the middle of an operation. -/
example : ∃ s : CS 3, CReach (setEpoch (2 ^ 21)) s ∧
    Inevitable (fun s s' => ∃ t, CWork (setEpoch (2 ^ 21)) t s s') (fun s' => ∀ t, (s'.thr t).pc = .done) s := by
  have h1 : CReach (setEpoch (2 ^ 21)) (CS.init 3) := .init
  have h2 := CReach.user h1 (.start (size := 5000000) rfl (.inl rfl) (by decide))
  have h3 := CReach.user h2 (.destroy rfl)
  exact ⟨_, h3, C35_quit (.inr ⟨21, by decide, by decide, rfl⟩) (by decide) h3 List.mem_cons_self⟩

end Lib842.Props
