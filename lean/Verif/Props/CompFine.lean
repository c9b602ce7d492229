import Verif.Proofs.CompFine3
import Verif.Props.CompStream
/-!
# Properties of the compression stream, one access at a time

C103.  `FReach (setEpoch E) f`: the stream, with `set_offset_sync_epoch_multiple(E)` (0: never called) and `N` threads, can be in state `f`
when every access to a member of the stream is a step of its own: the threads that hold no lock, and the unlocked accesses of the others, run
between the accesses of a critical section.  `FStep` are the steps of the threads and of the user's call under way.  `f.log` is the trace, newest
first; a call of the user is in it once it has taken effect.
-/

namespace Lib842.Props
open Lib842 Spec

variable {N : Nat} {E : Nat} {f : FS N}

/-- C103: whatever the interleaving of the accesses, the user sees a trace that the stream could produce if the critical sections were single
steps. -/
theorem C103_same_traces (hE : EpochOk E) (h : FReach (setEpoch E) f) : ∃ s : CS N, CReach (setEpoch E) s ∧ s.log = f.log := by
  obtain ⟨c, hc, hr⟩ := freach_rel (epochSetting_of hE) h
  exact ⟨c, hc, hr.log⟩

/-- C103: a finished operation that succeeded and was not cancelled has handed out each whole block of its input once, and nothing else. -/
theorem C103_blocks_exactly_once (hE : EpochOk E) (h : FReach (setEpoch E) f) {l1 l2 : List Ev}
    (hl : f.log = l2 ++ l1) (hd : .destroy ∉ l1) (hf : .finalized true ∈ curOp l1) (hc : .finalize true ∉ curOp l1) :
    (offsets (curOp l1)).Perm ((List.range (opSize l1 / blockSize)).map (· * blockSize)) ∧ ∀ o, .failBlock o ∉ curOp l1 := by
  obtain ⟨s, hs, hlog⟩ := C103_same_traces hE h
  exact C32_blocks_exactly_once hE hs (hlog.trans hl) hd hf hc

/-- C103: at any time no block of the current operation has been handed out twice, and only whole blocks of its input have been. -/
theorem C103_at_most_once (hE : EpochOk E) (h : FReach (setEpoch E) f) :
    (offsets (curOp f.log)).Nodup ∧ ∀ o ∈ offsets (curOp f.log), o % blockSize = 0 ∧ o + blockSize ≤ opSize f.log := by
  obtain ⟨s, hs, hlog⟩ := C103_same_traces hE h
  rw [← hlog]
  exact C32_at_most_once hE hs

/-- C103: when a block at or beyond a multiple of the epoch is handed out, every block below the multiple has been handed out, and its callback
has returned. -/
theorem C103_epoch_order {j : Nat} (hj : 20 ≤ j) (hj' : j < 64) (h : FReach (setEpoch (2 ^ j)) f)
    {l1 l2 : List Ev} {e : Ev} {o : Nat} (hl : f.log = l2 ++ e :: l1) (he : e = .block o ∨ e = .failBlock o)
    (hd : .destroy ∉ l1) {m o' : Nat} (hm : m * 2 ^ j ≤ o) (ho' : o' < m * 2 ^ j) (hb : o' % blockSize = 0) :
    o' ∈ offsets (curOp l1) ∧ .returned o' ∈ curOp l1 := by
  obtain ⟨s, hs, hlog⟩ := C103_same_traces (.inr ⟨j, hj, hj', rfl⟩) h
  exact C33_epoch_order hj hj' hs (hlog.trans hl) he hd hm ho' hb

/-- C103: when the finalize callback is called, `finalize` has been called for the operation, the callback has not been called for it before,
and every block callback has returned.  Its argument is `false` exactly if a block callback signalled an error. -/
theorem C103_finalize_callback (hE : EpochOk E) (h : FReach (setEpoch E) f) {l1 l2 : List Ev} {ok : Bool}
    (hl : f.log = l2 ++ .finalized ok :: l1) (hd : .destroy ∉ l1) :
    (∃ c, .finalize c ∈ curOp l1) ∧ (∀ ok', .finalized ok' ∉ curOp l1) ∧
    (∀ o ∈ offsets (curOp l1), .returned o ∈ curOp l1) ∧ (ok = false ↔ ∃ o, .failBlock o ∈ curOp l1) := by
  obtain ⟨s, hs, hlog⟩ := C103_same_traces hE h
  exact C34_finalize_callback hE hs (hlog.trans hl) hd

/-- C103: after the finalize callback the user sees nothing until their next call. -/
theorem C103_nothing_after (hE : EpochOk E) (h : FReach (setEpoch E) f) {l1 l2 : List Ev} {e : Ev}
    (hl : f.log = l2 ++ e :: l1) (hd : .destroy ∉ e :: l1) {ok : Bool} (hf : .finalized ok ∈ curOp l1) :
    (∃ n, e = .start n) ∨ ∃ c, e = .finalize c := by
  obtain ⟨s, hs, hlog⟩ := C103_same_traces hE h
  exact C34_nothing_after hE hs (hlog.trans hl) hd hf

/-- C103: when `start` writes `_size`, without the mutex, no thread is about to access it, nor inside the critical section that resets the
stream. -/
theorem C103_start_alone (hE : EpochOk E) (h : FReach (setEpoch E) f) {n : Nat} (hu : f.usr = .stSize n) (t : Fin N) :
    (f.thr t).pc ∉ [.enter, .count, .rLock, .rQuit, .rSize, .rCur, .rErr] ∧ ∀ e, (f.thr t).pc ≠ .rErrSet e ∧ (f.thr t).pc ≠ .rFin e := by
  obtain ⟨c, hc, hr⟩ := freach_rel (epochSetting_of hE) h
  have hl := hr.uloc
  rw [hu] at hl
  obtain ⟨h1, h2⟩ := creach_start_idle (epochSetting_of hE) hc (by rw [hr.quit, hl.1]; rfl) (by rw [hr.log]; exact hl.2.1) t
  rw [hr.cpc t] at h1 h2
  unfold FThr.coPc at h1 h2
  cases hp : (f.thr t).pc <;> rw [hp] at h1 h2 <;> simp [CPc.idle] at h1 h2 ⊢

/-- C103: at most one thread, or the user, is inside a critical section of `_mutex` (`held` lists the places inside one), and it is the owner of
the mutex. -/
theorem C103_mutex (hE : EpochOk E) (h : FReach (setEpoch E) f) :
    (∀ t, (f.thr t).pc.held = true ↔ f.owner = some (some t)) ∧ (f.usr.held = true ↔ f.owner = some none) := by
  obtain ⟨c, hc, hr⟩ := freach_rel (epochSetting_of hE) h
  exact ⟨hr.own, hr.uown⟩

/-- C103: if nothing can happen, the threads have ended and the destructor is waiting for them to do so, or the user is not in a call and the
stream waits for `start` or `finalize`. -/
theorem C103_no_deadlock (hE : EpochOk E) (hN : 0 < N) (h : FReach (setEpoch E) f) (hno : ∀ f', ¬ FStep (setEpoch E) f f') :
    (.destroy ∈ f.log ∧ f.usr = .dsJoin ∧ ∀ t, (f.thr t).pc = .done) ∨
    (.destroy ∉ f.log ∧ f.usr = .idle ∧ (mayStart f.log ∨ mayFinalize f.log)) := fstuck (epochSetting_of hE) hN h hno

/-- C103: between calls of the user there are only finitely many steps (not counting spurious wakeups), in any order. -/
theorem C103_terminates (hE : EpochOk E) (h : FReach (setEpoch E) f) : Acc (fun f' f => FStep (setEpoch E) f f') f :=
  fstep_acc (epochSetting_of hE) h

theorem fine_inevitable {k : Option Nat} (hk : EpochSetting k) {P Q : FS N → Prop}
    (hQ : ∀ s s', FReach k s → Q s → FStep k s s' → P s ∨ Q s')
    (hP : ∀ s, FReach k s → Q s → (∀ s', ¬ FStep k s s') → P s) {s : FS N} (h : FReach k s) (hq : Q s) :
    Inevitable (FStep k) P s := by
  have ha := fstep_acc hk h
  induction ha with
  | intro s _ ih =>
    by_cases hp : P s
    · exact .now hp
    · by_cases hex : ∃ s', FStep k s s'
      · refine .later hex ?_
        intro s' hs
        exact ih s' hs (.step h hs) ((hQ s s' h hq hs).resolve_left hp)
      · exact .now (hP s h hq fun s' hs => hex ⟨s', hs⟩)

/-- C103: every call of the user returns, whatever the schedule; the destructor after all threads have ended. -/
theorem C103_calls_return (hE : EpochOk E) (hN : 0 < N) (h : FReach (setEpoch E) f) :
    Inevitable (FStep (setEpoch E)) (fun f' => f'.usr = .idle ∨ f'.usr = .dsJoin ∧ ∀ t, (f'.thr t).pc = .done) f := by
  refine fine_inevitable (epochSetting_of hE) (Q := fun _ => True) (fun _ _ _ _ _ => .inr trivial) ?_ h trivial
  intro s hs _ hno
  rcases C103_no_deadlock hE hN hs hno with ⟨_, h1, h2⟩ | ⟨_, h1, _⟩
  · exact .inr ⟨h1, h2⟩
  · exact .inl h1

/-- C103: once the user has called `finalize` the finalize callback is called, whatever the schedule. -/
theorem C103_finalize_happens (hE : EpochOk E) (hN : 0 < N) (h : FReach (setEpoch E) f) {c : Bool}
    (hu : f.usr = .fnLock c ∨ f.usr = .idle ∧ .finalize c ∈ curOp f.log) :
    Inevitable (FStep (setEpoch E)) (fun f' => ∃ ok, .finalized ok ∈ curOp f'.log) f := by
  have hk := epochSetting_of hE
  refine fine_inevitable hk (Q := fun s => s.usr = .fnLock c ∨ s.usr = .fnFlag c ∨ s.usr = .fnCur c ∨
    ((s.usr = .fnNotify ∨ s.usr = .unlock ∨ s.usr = .idle) ∧ .finalize c ∈ curOp s.log)) ?_ ?_ h
    (hu.imp id fun x => .inr (.inr ⟨.inr (.inr x.1), x.2⟩))
  · rintro s s' hs hq (⟨t, hw⟩ | hw)
    · right
      rw [fwork_usr hw]
      refine hq.imp id (Or.imp id (Or.imp id (And.imp id fun hx => ?_)))
      have : s'.log = s.log ∨ ∃ e, s'.log = e :: s.log ∧ e.isStart = false := by
        cases hw <;> first | exact .inl rfl | (refine .inr ⟨_, rfl, ?_⟩; (try split) <;> rfl)
      rcases this with h1 | ⟨e, h1, h2⟩
      · rw [h1]; exact hx
      · rw [h1, curOp_cons h2]; exact List.mem_cons_of_mem _ hx
    · right
      rcases hq with hq | hq | hq | ⟨hq | hq | hq, hx⟩ <;> cases hw <;> simp_all
      all_goals first | exact List.mem_cons_self | exact hx
  · intro s hs hq hno
    rcases C103_no_deadlock hE hN hs hno with ⟨_, h1, _⟩ | ⟨h0, h1, h2⟩
    · rw [h1] at hq; simp at hq
    · rw [h1] at hq
      simp at hq
      obtain ⟨c', hc, hr⟩ := freach_rel hk hs
      rcases h2 with h2 | h2
      · rcases h2 with h3 | h3
        · rw [← hr.log, creach_started hc (by rw [hr.log]; exact List.takeWhile_subset _ hq)] at h3; cases h3
        · exact h3
      · exact absurd hq (h2.2 c)

/-- C103: once the user has called the destructor all threads end, whatever the schedule, so that it returns from `join`. -/
theorem C103_quit (hE : EpochOk E) (hN : 0 < N) (h : FReach (setEpoch E) f) (hu : f.usr = .dsLock) :
    Inevitable (FStep (setEpoch E)) (fun f' => .destroy ∈ f'.log ∧ f'.usr = .dsJoin ∧ ∀ t, (f'.thr t).pc = .done) f := by
  refine fine_inevitable (epochSetting_of hE)
    (Q := fun s => s.usr ∈ [.dsLock, .dsQuit, .dsCur, .dsNotify, .dsIntr, .dsUnlock, .dsJoin]) ?_ ?_ h (by rw [hu]; simp)
  · rintro s s' hs hq (⟨t, hw⟩ | hw)
    · right; rw [fwork_usr hw]; exact hq
    · right; cases hw <;> simp_all
  · intro s hs hq hno
    rcases C103_no_deadlock hE hN hs hno with h1 | ⟨_, h1, _⟩
    · exact h1
    · rw [h1] at hq; simp at hq

/-! ## Instances -/

/-- Turns of thread 0, the user, and twice thread 1; who cannot go on is skipped. -/
def fineTurns (n : Nat) : List (FAct 2) := (List.replicate n [FAct.go 0, .usr, .go 1, .go 1]).flatten

/-- Two threads, two blocks and five bytes, an epoch of one block. -/
def fineActs : List (FAct 2) := fineTurns 10 ++ .start (2 * 2 ^ 20 + 5) :: fineTurns 60 ++ .fin false :: fineTurns 30

theorem fineActs_log : ((FS.init 2).acts (setEpoch (2 ^ 20)) fineActs).log = exLog := by decide +kernel

theorem fineReach : ∃ f : FS 2, FReach (setEpoch (2 ^ 20)) f ∧ f.log = exLog := ⟨_, facts_reach fineActs .init, fineActs_log⟩

/-- A finished operation -/
example : ∃ f : FS 2, FReach (setEpoch (2 ^ 20)) f ∧ .finalized true ∈ curOp f.log ∧ (offsets (curOp f.log)).Perm [0, 1048576] := by
  obtain ⟨f, hf, hl⟩ := fineReach
  have := (C103_blocks_exactly_once (l2 := []) exEpoch hf hl (by decide) (by decide) (by decide)).1
  refine ⟨f, hf, by rw [hl]; decide, ?_⟩
  rw [hl]
  exact this.trans (by decide)

/-- A thread in the middle of the critical section of `failed` while the user's call of `finalize` waits for the mutex and the other thread goes on -/
def fineFail : List (FAct 2) :=
  .start (2 * 2 ^ 20) :: fineTurns 9 ++ List.replicate 12 (.bad 0) ++ .fin true :: [.usr]

theorem fineFail_state : let f := (FS.init 2).acts (setEpoch 0) fineFail
    f.usr = .fnLock true ∧ f.owner = some (some 0) := by decide +kernel

example : ∃ f : FS 2, FReach (setEpoch 0) f ∧ f.owner = some (some 0) ∧ f.usr = .fnLock true ∧
    Inevitable (FStep (setEpoch 0)) (fun f' => ∃ ok, .finalized ok ∈ curOp f'.log) f :=
  have h : FReach (setEpoch 0) ((FS.init 2).acts (setEpoch 0) fineFail) := facts_reach _ .init
  ⟨_, h, fineFail_state.2, fineFail_state.1, C103_finalize_happens (.inl rfl) (by decide) h (.inl fineFail_state.1)⟩

/-- The destructor called in the middle of an operation -/
example : ∃ f : FS 2, FReach (setEpoch 0) f ∧ Inevitable (FStep (setEpoch 0))
    (fun f' => .destroy ∈ f'.log ∧ f'.usr = .dsJoin ∧ ∀ t, (f'.thr t).pc = .done) f := by
  have h : FReach (setEpoch 0) ((FS.init 2).acts (setEpoch 0) (.start (2 * 2 ^ 20) :: fineTurns 9 ++ [.kill])) := facts_reach _ .init
  exact ⟨_, h, C103_quit (.inl rfl) (by decide) h (by decide +kernel)⟩

end Lib842.Props
