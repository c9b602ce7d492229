import Verif.Proofs.DecompStream4
/-!
# Properties of the decompression stream

C34, C35, C37.  `DReach s`: the stream, with `N` threads, can be in state `s` after some sequence
of calls of `start`, `push_block`, `finalize` and the destructor and some interleaving of its
threads.  `s.log` is what has happened, newest first.
-/

namespace Lib842.Props
open Lib842 Spec

variable {N : Nat} {s : DS N}

/-- C37: when the finalize callback of an operation that was not cancelled is called with `true`,
the blocks whose decompression has ended, successfully, are the blocks pushed in the operation,
each as often as it was pushed. -/
theorem C37_blocks_exactly_once (h : DReach s) {l1 l2 : List DEv} (hl : s.log = l2 ++ .finalized true :: l1)
    (hd : .destroy ∉ l1) (hc : .finalize true ∉ dcurOp l1) :
    (ends (dcurOp l1)).Perm (pushes (dcurOp l1)) ∧ ∀ b, .ended b false ∉ dcurOp l1 := by
  have ht := (dreach_trace h l2 (.finalized true :: l1) hl (by simpa using hd)).1
  obtain ⟨_, _, h3, h4, h5⟩ := ht
  refine ⟨List.perm_iff_count.2 fun b => (h3 b).trans (h5 rfl hc b), fun b hb => ?_⟩
  have := h4.2 ⟨b, hb⟩
  cases this

/-- C37: at any time, also after an error, a cancellation or the destructor, no block has been
decompressed more often than it was pushed. -/
theorem C37_at_most_once (h : DReach s) (b : Nat) :
    (ends (dcurOp s.log)).count b ≤ (begins (dcurOp s.log)).count b ∧
    (begins (dcurOp s.log)).count b ≤ (pushes (dcurOp s.log)).count b := by
  obtain ⟨arr, G, base, run, hi⟩ := dreach_inv h
  have h1 := hi.b.hist b
  have h2 := hi.b.le b
  omega

/-- C37: `push_block` returns `false` only after the decompression of a block of the operation has
failed, so that a refused block is reported by the finalize callback too. -/
theorem C37_refused (h : DReach s) {l1 l2 : List DEv} {b : Nat} (hl : s.log = l2 ++ .refused b :: l1)
    (hd : .destroy ∉ l1) : ∃ b', .ended b' false ∈ dcurOp l1 :=
  (dreach_trace h l2 (.refused b :: l1) hl (by simpa using hd)).1

/-- C34: when the finalize callback is called, `finalize` has been called for the operation, the
callback has not been called for it before, every decompression that has begun has ended.  Its
argument is `false` exactly if one of them has failed. -/
theorem C34_decomp_finalize_callback (h : DReach s) {l1 l2 : List DEv} {ok : Bool}
    (hl : s.log = l2 ++ .finalized ok :: l1) (hd : .destroy ∉ l1) :
    (∃ c, .finalize c ∈ dcurOp l1) ∧ (∀ ok', .finalized ok' ∉ dcurOp l1) ∧
    (ends (dcurOp l1)).Perm (begins (dcurOp l1)) ∧ (ok = false ↔ ∃ b, .ended b false ∈ dcurOp l1) := by
  have ht := (dreach_trace h l2 (.finalized ok :: l1) hl (by simpa using hd)).1
  exact ⟨ht.1, ht.2.1, List.perm_iff_count.2 ht.2.2.1, ht.2.2.2.1⟩

/-- C34: nothing is decompressed after the callback. -/
theorem C34_decomp_nothing_after (h : DReach s) {l1 l2 : List DEv} {e : DEv} (hl : s.log = l2 ++ e :: l1)
    (hd : .destroy ∉ e :: l1) {ok : Bool} (hf : .finalized ok ∈ dcurOp l1) :
    (∀ b, e ≠ .begin b) ∧ (∀ b ok', e ≠ .ended b ok') ∧ ∀ ok', e ≠ .finalized ok' := by
  have ht := (dreach_trace h l2 (e :: l1) hl hd).1
  refine ⟨?_, ?_, ?_⟩
  · rintro b rfl; exact ht.1 ok hf
  · rintro b ok' rfl; exact ht.1 ok hf
  · rintro ok' rfl; exact ht.2.1 ok hf

/-- C35: if no thread of a stream can do anything, all of them have ended after the destructor, or
the stream waits for its user: for `start`, or for `push_block` and `finalize`.  In that case every
decompression has ended, and unless one has failed every pushed block has been decompressed: no
block waits for a thread that sleeps. -/
theorem C35_decomp_no_deadlock (hN : 0 < N) (h : DReach s) (hno : ∀ t s', ¬ DWork t s s') :
    (.destroy ∈ s.log ∧ ∀ t, (s.thr t).pc = .done) ∨
    (.destroy ∉ s.log ∧ (dmayStart s.log ∨ (dmayPush s.log ∧
      (ends (dcurOp s.log)).Perm (begins (dcurOp s.log)) ∧
      ((∀ b, .ended b false ∉ dcurOp s.log) → (ends (dcurOp s.log)).Perm (pushes (dcurOp s.log)))))) := by
  obtain ⟨arr, G, base, run, hi⟩ := dreach_inv h
  have hq := dreach_quit h
  rcases dquiescent hi hN fun t => dstuck_of (hno t) with ⟨h1, h2⟩ | ⟨h1, h2⟩
  · exact .inl ⟨hq.1 h1, h2⟩
  · refine .inr ⟨fun hx => ?_, ?_⟩
    · rw [hq.2 hx] at h1; cases h1
    · rcases h2 with h2 | ⟨h2, h3, h4⟩
      · exact .inl h2
      · exact .inr ⟨h2, List.perm_iff_count.2 h3,
          fun hx => List.perm_iff_count.2 fun b => (h3 b).trans (h4 hx b)⟩

/-- C35: between calls of the user the threads do only finitely many steps (not counting spurious
wakeups), in any order. -/
theorem C35_decomp_terminates (h : DReach s) : Acc (fun s' s => ∃ t, DWork t s s') s := dwork_acc s h

theorem dinevitable_of_acc {P Q : DS N → Prop} (hQ : ∀ s t s', DReach s → Q s → DWork t s s' → Q s')
    (hP : ∀ s, DReach s → Q s → (∀ t s', ¬ DWork t s s') → P s) {s : DS N} (h : DReach s) (hq : Q s) :
    Inevitable (fun s s' => ∃ t, DWork t s s') P s := by
  have ha := dwork_acc s h
  induction ha with
  | intro s _ ih =>
    by_cases hex : ∃ s', ∃ t, DWork t s s'
    · refine .later hex ?_
      rintro s' ⟨t, hs⟩
      exact ih s' ⟨t, hs⟩ (.work h hs) (hQ s t s' h hq hs)
    · refine .now (hP s h hq fun t s' hs => hex ⟨s', t, hs⟩)

/-- C34: after `finalize` the finalize callback is called, whatever the schedule. -/
theorem C34_decomp_finalize_happens (hN : 0 < N) (h : DReach s) (hd : .destroy ∉ s.log)
    {c : Bool} (hf : .finalize c ∈ dcurOp s.log) :
    Inevitable (fun s s' => ∃ t, DWork t s s') (fun s' => ∃ ok, .finalized ok ∈ dcurOp s'.log) s := by
  refine dinevitable_of_acc (Q := fun s => .destroy ∉ s.log ∧ .finalize c ∈ dcurOp s.log) ?_ ?_ h ⟨hd, hf⟩
  · rintro s t s' _ ⟨h1, h2⟩ hs
    obtain ⟨_, h3 | ⟨e, h3, h4, h5, _⟩⟩ := dwork_log hs
    · rw [h3]; exact ⟨h1, h2⟩
    · rw [h3, dcurOp_cons h4]
      refine ⟨?_, List.mem_cons_of_mem _ h2⟩
      intro hx
      rcases List.mem_cons.1 hx with hx | hx
      · exact h5 hx.symm
      · exact h1 hx
  · rintro s hs ⟨h1, h2⟩ hno
    rcases C35_decomp_no_deadlock hN hs hno with ⟨h3, _⟩ | ⟨_, h3 | ⟨h3, _⟩⟩
    · exact absurd h3 h1
    · rcases h3 with h3 | h3
      · rw [dreach_started hs (List.takeWhile_subset _ h2)] at h3; cases h3
      · exact h3
    · exact absurd h2 (h3.2 c)

/-- C35: after the destructor has set `_quit` all threads end, whatever the schedule, so that it
returns from `join`. -/
theorem C35_decomp_quit (hN : 0 < N) (h : DReach s) (hd : .destroy ∈ s.log) :
    Inevitable (fun s s' => ∃ t, DWork t s s') (fun s' => ∀ t, (s'.thr t).pc = .done) s := by
  refine dinevitable_of_acc (Q := fun s => .destroy ∈ s.log) ?_ ?_ h hd
  · intro s t s' _ h1 hs
    obtain ⟨_, h3 | ⟨e, h3, _, _⟩⟩ := dwork_log hs
    · rw [h3]; exact h1
    · rw [h3]; exact List.mem_cons_of_mem _ h1
  · intro s hs h1 hno
    rcases C35_decomp_no_deadlock hN hs hno with ⟨_, h3⟩ | ⟨h3, _⟩
    · exact h3
    · exact absurd h1 h3

/-! ## Instances -/

/-- Two threads; one block is pushed while both sleep, two more while one decompresses. -/
def exDActs : List (DAct 2) :=
  .start :: [0, 0, 0, 1, 1, 1].map .go ++ .push 7 (some 1) :: .go 1 :: .push 8 (some 0) :: .push 7 none ::
    [0, 1, 1, 1, 0, 0].map .go ++ .fin false :: [0, 1, 0, 1, 0, 1, 0, 0, 0, 0, 0, 0].map .go

def exDLog : List DEv :=
  [.finalized true, .finalize false, .ended 8 true, .ended 7 true, .begin 7, .ended 7 true, .begin 8, .push 7,
   .push 8, .begin 7, .push 7, .start]

theorem exDActs_log : ((DS.init 2).acts exDActs).map (·.log) = some exDLog := by decide +kernel

theorem exDReach : ∃ s : DS 2, DReach s ∧ s.log = exDLog := by
  have h := exDActs_log
  cases ha : (DS.init 2).acts exDActs with
  | none => rw [ha] at h; cases h
  | some s =>
    rw [ha] at h
    exact ⟨s, dacts_reach .init ha, by simpa using h⟩

/-- C37 on it. -/
example : ∃ (s : DS 2) (l1 : List DEv), DReach s ∧ s.log = .finalized true :: l1 ∧
    (ends (dcurOp l1)).Perm [7, 8, 7] := by
  obtain ⟨s, hs, hl⟩ := exDReach
  exact ⟨s, exDLog.tail, hs, hl,
    (C37_blocks_exactly_once hs (l2 := []) hl (by decide) (by decide)).1⟩

/-- C34, C37: an operation in which a block fails, another one is dropped, and one is refused. -/
theorem exDFail : ((DS.init 1).acts
    (.start :: [.go 0, .go 0, .go 0, .push 1 (some 0), .go 0, .push 2 none, .bad 0, .go 0, .push 3 none, .go 0, .fin false] ++
      List.replicate 6 (.go 0))).map (·.log) =
    some [.finalized false, .finalize false, .refused 3, .ended 1 false, .push 2, .begin 1, .push 1, .start] := by
  decide +kernel

/-- C34: a stream on which `finalize` has just been called. -/
example : ∃ s : DS 2, DReach s ∧ .finalize false ∈ dcurOp s.log ∧
    Inevitable (fun s s' => ∃ t, DWork t s s') (fun s' => ∃ ok, .finalized ok ∈ dcurOp s'.log) s := by
  have h1 : DReach (DS.init 2) := .init
  have h2 := DReach.user h1 (.start rfl (.inl rfl))
  have h3 := DReach.user h2 (.pushNone (b := 5) rfl ⟨rfl, by decide⟩ rfl (by decide))
  have h4 := DReach.user h3 (.finalize (cancel := false) rfl ⟨rfl, by decide⟩)
  exact ⟨_, h4, by decide, C34_decomp_finalize_happens (by decide) h4 (by decide) (c := false) (by decide)⟩

/-- C35: a stream destroyed in the middle of an operation. -/
example : ∃ s : DS 3, DReach s ∧
    Inevitable (fun s s' => ∃ t, DWork t s s') (fun s' => ∀ t, (s'.thr t).pc = .done) s := by
  have h1 : DReach (DS.init 3) := .init
  have h2 := DReach.user h1 (.start rfl (.inl rfl))
  have h3 := DReach.user h2 (.pushNone (b := 5) rfl ⟨rfl, by decide⟩ rfl (by decide))
  have h4 := DReach.user h3 (.destroy rfl)
  exact ⟨_, h4, C35_decomp_quit (by decide) h4 List.mem_cons_self⟩

end Lib842.Props
