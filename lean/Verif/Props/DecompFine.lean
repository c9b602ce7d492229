import Verif.Proofs.DecompFine3
import Verif.Props.DecompStream
/-!
# Properties of the decompression stream, one access at a time

C104.  `GReach f`: the stream, with `N` threads, can be in state `f` when every access to a member of the stream is a step of its own: the threads
that hold no lock, and the unlocked accesses of the others, run between the accesses of a critical section.  `GStep` are the steps of the threads
and of the user's call under way.  `f.log` is the trace, newest first; a call of the user is in it once it has taken effect.  `f.cbs` lists the
callbacks given to `finalize` and those called, newest first.
-/

namespace Lib842.Props
open Lib842 Spec

variable {N : Nat} {f : GS N}

/-- C104: whatever the interleaving of the accesses, the user sees a trace that the stream could produce if the critical sections were single
steps. -/
theorem C104_same_traces (h : GReach f) : ∃ s : DS N, DReach s ∧ s.log = f.log := by
  obtain ⟨c, hc, hr⟩ := greach_rel h
  exact ⟨c, hc, hr.log⟩

/-- C104: when the finalize callback of an operation that was not cancelled is called with `true`, the blocks whose decompression has ended,
successfully, are the blocks pushed in the operation, each as often as it was pushed. -/
theorem C104_blocks_exactly_once (h : GReach f) {l1 l2 : List DEv} (hl : f.log = l2 ++ .finalized true :: l1)
    (hd : .destroy ∉ l1) (hc : .finalize true ∉ dcurOp l1) :
    (ends (dcurOp l1)).Perm (pushes (dcurOp l1)) ∧ ∀ b, .ended b false ∉ dcurOp l1 := by
  obtain ⟨s, hs, hlog⟩ := C104_same_traces h
  exact C37_blocks_exactly_once hs (hlog.trans hl) hd hc

/-- C104: at any time no block has been decompressed more often than it was pushed. -/
theorem C104_at_most_once (h : GReach f) (b : Nat) :
    (ends (dcurOp f.log)).count b ≤ (begins (dcurOp f.log)).count b ∧
    (begins (dcurOp f.log)).count b ≤ (pushes (dcurOp f.log)).count b := by
  obtain ⟨s, hs, hlog⟩ := C104_same_traces h
  rw [← hlog]
  exact C37_at_most_once hs b

/-- C104: `push_block` returns `false` only after the decompression of a block of the operation has failed. -/
theorem C104_refused (h : GReach f) {l1 l2 : List DEv} {b : Nat} (hl : f.log = l2 ++ .refused b :: l1) (hd : .destroy ∉ l1) :
    ∃ b', .ended b' false ∈ dcurOp l1 := by
  obtain ⟨s, hs, hlog⟩ := C104_same_traces h
  exact C37_refused hs (hlog.trans hl) hd

/-- C104: when the finalize callback is called, `finalize` has been called for the operation, the callback has not been called for it before, and
every decompression that has begun has ended.  Its argument is `false` exactly if one of them has failed. -/
theorem C104_finalize_callback (h : GReach f) {l1 l2 : List DEv} {ok : Bool} (hl : f.log = l2 ++ .finalized ok :: l1) (hd : .destroy ∉ l1) :
    (∃ c, .finalize c ∈ dcurOp l1) ∧ (∀ ok', .finalized ok' ∉ dcurOp l1) ∧
    (ends (dcurOp l1)).Perm (begins (dcurOp l1)) ∧ (ok = false ↔ ∃ b, .ended b false ∈ dcurOp l1) := by
  obtain ⟨s, hs, hlog⟩ := C104_same_traces h
  exact C34_decomp_finalize_callback hs (hlog.trans hl) hd

/-- C104: nothing is decompressed after the callback. -/
theorem C104_nothing_after (h : GReach f) {l1 l2 : List DEv} {e : DEv} (hl : f.log = l2 ++ e :: l1)
    (hd : .destroy ∉ e :: l1) {ok : Bool} (hf : .finalized ok ∈ dcurOp l1) :
    (∀ b, e ≠ .begin b) ∧ (∀ b ok', e ≠ .ended b ok') ∧ ∀ ok', e ≠ .finalized ok' := by
  obtain ⟨s, hs, hlog⟩ := C104_same_traces h
  exact C34_decomp_nothing_after hs (hlog.trans hl) hd hf

/-- C104: a callback that is called is the one given to the last call of `finalize`, and it has not been called since: the callback that the
leader moves out of `_finalize_callback` is never empty, and never that of another operation. -/
theorem C104_right_callback (h : GReach f) {l1 l2 : List CbEv} {x : Option Nat} (hl : f.cbs = l2 ++ .called x :: l1) :
    ∃ g l, x = some g ∧ l1 = .given g :: l := (greach_cb h).tr l2 x l1 hl

/-- C104: a thread that decompresses a block writes to the buffer given to the last `start`. -/
theorem C104_ptr (h : GReach f) {t : Fin N} {b : Nat} (hp : (f.thr t).pc = .handle b) : f.ptr = f.opPtr := by
  obtain ⟨c, hc, hr⟩ := greach_rel h
  have := greach_ptr h
  cases hi : f.usr.inStart with
  | none => rw [hi] at this; exact this
  | some p => exact absurd hp (gidle hr hc (.inr hi) b)

/-- C104: when `start` writes `_ptr`, without the mutex, no thread is about to read it. -/
theorem C104_start_alone (h : GReach f) {p : Nat} (hu : f.usr = .stPtr p) (t : Fin N) (b : Nat) : (f.thr t).pc ≠ .handle b := by
  obtain ⟨c, hc, hr⟩ := greach_rel h
  exact gidle hr hc (.inl hu) b

/-- C104: `front` and `pop` are called on a queue that is not empty, and `pop` removes the block that `front` has returned. -/
theorem C104_front (h : GReach f) (t : Fin N) :
    ((f.thr t).pc = .popFront → f.queue ≠ []) ∧ ∀ b, (f.thr t).pc = .popPop b → f.queue.head? = some b := by
  obtain ⟨c, hc, hr⟩ := greach_rel h
  have hl := hr.loc t
  refine ⟨fun hp => ?_, fun b hp => ?_⟩
  · simp only [GThr.Loc, hp] at hl; exact hl.2
  · simp only [GThr.Loc, hp] at hl
    obtain ⟨_, q, hq⟩ := hl
    rw [hq]; rfl

/-- C104: the assertion in `push_block` holds. -/
theorem C104_no_abort (h : GReach f) : f.usr ≠ .aborted := by
  obtain ⟨c, hc, hr⟩ := greach_rel h
  intro hu
  have := hr.uloc
  rw [hu] at this
  exact this

/-- C104: at most one thread, or the user, is inside a critical section of `_mutex` (`held` lists the places inside one), and it is the owner of
the mutex. -/
theorem C104_mutex (h : GReach f) :
    (∀ t, (f.thr t).pc.held = true ↔ f.owner = some (some t)) ∧ (f.usr.held = true ↔ f.owner = some none) := by
  obtain ⟨c, hc, hr⟩ := greach_rel h
  exact ⟨hr.own, hr.uown⟩

/-- C104: if nothing can happen, the threads have ended and the destructor is waiting for them to do so, or the user is not in a call and the
stream waits for `start`, or for `push_block` and `finalize`; then no block waits for a thread that sleeps. -/
theorem C104_no_deadlock (hN : 0 < N) (h : GReach f) (hno : ∀ f', ¬ GStep f f') :
    (.destroy ∈ f.log ∧ f.usr = .dsJoin ∧ ∀ t, (f.thr t).pc = .done) ∨
    (.destroy ∉ f.log ∧ f.usr = .idle ∧ (dmayStart f.log ∨ (dmayPush f.log ∧
      (ends (dcurOp f.log)).Perm (begins (dcurOp f.log)) ∧
      ((∀ b, .ended b false ∉ dcurOp f.log) → (ends (dcurOp f.log)).Perm (pushes (dcurOp f.log)))))) := gstuck hN h hno

/-- C104: between calls of the user there are only finitely many steps (not counting spurious wakeups), in any order. -/
theorem C104_terminates (h : GReach f) : Acc (fun f' f => GStep f f') f := gstep_acc h

theorem dfine_inevitable {P Q : GS N → Prop} (hQ : ∀ s s', GReach s → Q s → GStep s s' → P s ∨ Q s')
    (hP : ∀ s, GReach s → Q s → (∀ s', ¬ GStep s s') → P s) {s : GS N} (h : GReach s) (hq : Q s) : Inevitable GStep P s := by
  have ha := gstep_acc h
  induction ha with
  | intro s _ ih =>
    by_cases hp : P s
    · exact .now hp
    · by_cases hex : ∃ s', GStep s s'
      · refine .later hex ?_
        intro s' hs
        exact ih s' hs (.step h hs) ((hQ s s' h hq hs).resolve_left hp)
      · exact .now (hP s h hq fun s' hs => hex ⟨s', hs⟩)

/-- C104: every call of the user returns, whatever the schedule; the destructor after all threads have ended. -/
theorem C104_calls_return (hN : 0 < N) (h : GReach f) :
    Inevitable GStep (fun f' => f'.usr = .idle ∨ f'.usr = .dsJoin ∧ ∀ t, (f'.thr t).pc = .done) f := by
  refine dfine_inevitable (Q := fun _ => True) (fun _ _ _ _ _ => .inr trivial) ?_ h trivial
  intro s hs _ hno
  rcases C104_no_deadlock hN hs hno with ⟨_, h1, h2⟩ | ⟨_, h1, _⟩
  · exact .inr ⟨h1, h2⟩
  · exact .inl h1

/-- C104: once the user has called `finalize` the finalize callback is called, whatever the schedule. -/
theorem C104_finalize_happens (hN : 0 < N) (h : GReach f) {c : Bool}
    (hu : (∃ g, f.usr = .fnLock c g) ∨ f.usr = .idle ∧ .finalize c ∈ dcurOp f.log) :
    Inevitable GStep (fun f' => ∃ ok, .finalized ok ∈ dcurOp f'.log) f := by
  refine dfine_inevitable (Q := fun s => (∃ g, s.usr = .fnLock c g ∨ s.usr = .fnFlag c g ∨ s.usr = .fnCb c g) ∨ s.usr = .fnQueue c ∨
    s.usr = .fnNotify c ∨ ((s.usr = .unlock ∨ s.usr = .idle) ∧ .finalize c ∈ dcurOp s.log)) ?_ ?_ h
    (hu.imp (fun ⟨g, x⟩ => ⟨g, .inl x⟩) fun x => .inr (.inr ⟨.inr x.1, x.2⟩))
  · rintro s s' hs hq (⟨t, hw⟩ | hw)
    · right
      rw [(gwork_usr hw).1]
      refine hq.imp id (Or.imp id (Or.imp id (And.imp id fun hx => ?_)))
      have : s'.log = s.log ∨ ∃ e, s'.log = e :: s.log ∧ e.isStart = false := by
        cases hw <;> first | exact .inl rfl | exact .inr ⟨_, rfl, rfl⟩
      rcases this with h1 | ⟨e, h1, h2⟩
      · rw [h1]; exact hx
      · rw [h1, dcurOp_cons h2]; exact List.mem_cons_of_mem _ hx
    · right
      rcases hq with ⟨g, hq | hq | hq⟩ | hq | hq | ⟨hq | hq, hx⟩ <;> cases hw <;> simp_all
      all_goals first | exact List.mem_cons_self | exact hx
  · intro s hs hq hno
    rcases C104_no_deadlock hN hs hno with ⟨_, h1, _⟩ | ⟨h0, h1, h2⟩
    · rw [h1] at hq; simp at hq
    · rw [h1] at hq
      simp at hq
      obtain ⟨c', hc, hr⟩ := greach_rel hs
      rcases h2 with h2 | h2
      · rcases h2 with h3 | h3
        · rw [← hr.log, dreach_started hc (by rw [hr.log]; exact List.takeWhile_subset _ hq)] at h3; cases h3
        · exact h3
      · exact absurd hq (h2.1.2 c)

/-- C104: once the user has called the destructor all threads end, whatever the schedule, so that it returns from `join`. -/
theorem C104_quit (hN : 0 < N) (h : GReach f) (hu : f.usr = .dsLock) :
    Inevitable GStep (fun f' => .destroy ∈ f'.log ∧ f'.usr = .dsJoin ∧ ∀ t, (f'.thr t).pc = .done) f := by
  refine dfine_inevitable (Q := fun s => s.usr ∈ [.dsLock, .dsQuit, .dsNotT, .dsNotQ, .dsIntr, .dsUnlock, .dsJoin]) ?_ ?_ h (by rw [hu]; simp)
  · rintro s s' hs hq (⟨t, hw⟩ | hw)
    · right; rw [(gwork_usr hw).1]; exact hq
    · right; cases hw <;> simp_all
  · intro s hs hq hno
    rcases C104_no_deadlock hN hs hno with h1 | ⟨_, h1, _⟩
    · exact h1
    · rw [h1] at hq; simp at hq

/-! ## Instances -/

/-- Turns of thread 0, the user, and twice thread 1; who cannot go on is skipped. -/
def dfineTurns (n : Nat) : List (GAct 2) := (List.replicate n [GAct.go 0, .usr, .go 1, .go 1]).flatten

/-- Two threads, two operations; in the second one a block fails. -/
def dfineActs : List (GAct 2) :=
  .start 100 :: dfineTurns 12 ++ .push 7 :: dfineTurns 12 ++ .push 8 :: dfineTurns 12 ++ .fin false 5 :: dfineTurns 40 ++
  .start 200 :: dfineTurns 12 ++ .push 9 :: dfineTurns 12 ++ List.replicate 12 (.bad 0) ++ List.replicate 12 (.bad 1) ++ .push 10 :: dfineTurns 12 ++
  .fin false 6 :: dfineTurns 40

def dfineOp1 : List DEv := [.finalize false, .ended 8 true, .begin 8, .push 8, .ended 7 true, .begin 7, .push 7, .start]

def dfineOp2 : List DEv := [.finalize false, .refused 10, .ended 9 false, .begin 9, .push 9, .start]

theorem dfineActs_log : ((GS.init 2 0).acts dfineActs).log = .finalized false :: dfineOp2 ++ .finalized true :: dfineOp1 ∧
    ((GS.init 2 0).acts dfineActs).cbs = [.called (some 6), .given 6, .called (some 5), .given 5] := by decide +kernel

theorem dfineReach : ∃ f : GS 2, GReach f ∧ f.log = .finalized false :: dfineOp2 ++ .finalized true :: dfineOp1 ∧
    f.cbs = [.called (some 6), .given 6, .called (some 5), .given 5] := ⟨_, gacts_reach dfineActs .init, dfineActs_log⟩

/-- The first operation -/
example : (ends (dcurOp dfineOp1)).Perm [7, 8] := by
  obtain ⟨f, hf, hl, _⟩ := dfineReach
  exact (C104_blocks_exactly_once (l2 := .finalized false :: dfineOp2) hf hl (by decide) (by decide)).1.trans (by decide)

/-- The second operation -/
example : (∃ f : GS 2, GReach f ∧ f.log = [.finalized false, .finalize false] ++ .refused 10 :: (dfineOp2.drop 2 ++ .finalized true :: dfineOp1)) ∧
    ∃ b', .ended b' false ∈ dcurOp (dfineOp2.drop 2 ++ .finalized true :: dfineOp1) := by
  obtain ⟨f, hf, hl, _⟩ := dfineReach
  exact ⟨⟨f, hf, hl⟩, C104_refused (l2 := [.finalized false, .finalize false]) hf hl (by decide)⟩

/-- Callbacks of both -/
example : ∃ f : GS 2, GReach f ∧ .called (some 6) ∈ f.cbs ∧ .called (some 5) ∈ f.cbs := by
  obtain ⟨f, hf, _, hl⟩ := dfineReach
  exact ⟨f, hf, by rw [hl]; decide, by rw [hl]; decide⟩

/-- A thread that decompresses a block into the buffer of the second `start` -/
def dfineHandle : List (GAct 2) :=
  .start 100 :: dfineTurns 12 ++ .fin false 5 :: dfineTurns 40 ++ .start 200 :: dfineTurns 12 ++ .push 9 :: dfineTurns 15

theorem dfineHandle_state : (((GS.init 2 0).acts dfineHandle).thr 0).pc = .handle 9 ∧ ((GS.init 2 0).acts dfineHandle).opPtr = 200 := by
  decide +kernel

example : ∃ f : GS 2, GReach f ∧ (f.thr 0).pc = .handle 9 ∧ f.ptr = 200 :=
  have h : GReach ((GS.init 2 0).acts dfineHandle) := gacts_reach _ .init
  ⟨_, h, dfineHandle_state.1, (C104_ptr h dfineHandle_state.1).trans dfineHandle_state.2⟩

/-- A thread that is about to call `front` -/
example : ∃ f : GS 2, GReach f ∧ (f.thr 0).pc = .popFront ∧ f.queue ≠ [] :=
  have h : GReach ((GS.init 2 0).acts (dfineHandle.take (dfineHandle.length - 12))) := gacts_reach _ .init
  have hp : (((GS.init 2 0).acts (dfineHandle.take (dfineHandle.length - 12))).thr 0).pc = .popFront := by decide +kernel
  ⟨_, h, hp, (C104_front h 0).1 hp⟩

/-- A thread in the middle of the critical section of a failed block while the user's call of `finalize` waits for the mutex -/
def dfineFail : List (GAct 2) := dfineHandle ++ [.bad 0, .go 0, .go 0, .fin true 6, .usr]

theorem dfineFail_state : let f := (GS.init 2 0).acts dfineFail
    f.usr = .fnLock true 6 ∧ f.owner = some (some 0) ∧ (f.thr 0).pc = .failErr := by decide +kernel

example : ∃ f : GS 2, GReach f ∧ f.owner = some (some 0) ∧ f.usr = .fnLock true 6 ∧
    Inevitable GStep (fun f' => ∃ ok, .finalized ok ∈ dcurOp f'.log) f :=
  have h : GReach ((GS.init 2 0).acts dfineFail) := gacts_reach _ .init
  ⟨_, h, dfineFail_state.2.1, dfineFail_state.1, C104_finalize_happens (by decide) h (.inl ⟨6, dfineFail_state.1⟩)⟩

/-- The destructor called in the middle of an operation -/
example : ∃ f : GS 2, GReach f ∧ Inevitable GStep (fun f' => .destroy ∈ f'.log ∧ f'.usr = .dsJoin ∧ ∀ t, (f'.thr t).pc = .done) f := by
  have h : GReach ((GS.init 2 0).acts (dfineHandle ++ [.kill])) := gacts_reach _ .init
  exact ⟨_, h, C104_quit (by decide) h (by decide +kernel)⟩

/-- The destructor has ended the threads. -/
example : ∃ f : GS 2, GReach f ∧ f.usr = .dsJoin ∧ ∀ t, (f.thr t).pc = .done := by
  have h : GReach ((GS.init 2 0).acts (dfineHandle ++ .kill :: dfineTurns 30)) := gacts_reach _ .init
  exact ⟨_, h, by decide +kernel⟩

end Lib842.Props
