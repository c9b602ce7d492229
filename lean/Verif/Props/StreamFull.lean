import Verif.Proofs.CompFull2
import Verif.Proofs.DecompFull2
import Verif.Props.StreamFine
/-!
# Properties of both streams, every access of the stream and of its barrier a step

C109.  `XReach (setEpoch E) x`: the compression stream, with `set_offset_sync_epoch_multiple(E)` (0: never called) and `N` threads, can be in state
`x` when every access to a member of the stream, and every access to a member of its barrier, is a step of its own.  `YReach x`: the same for the
decompression stream.  `XStep` and `YStep` are the steps of the threads and of the user's call under way, inside and outside the barrier.
`x.st.log` is the trace, newest first; a call of the user is in it once it has taken effect.
-/

namespace Lib842.Props
open Lib842 Spec

/-! ## Compression -/

section
variable {N : Nat} {E : Nat} {x : XS N}

/-- C109: whatever the interleaving of the accesses, the user sees a trace that the stream could produce if the critical sections of the stream and
of the barrier were single steps. -/
theorem C109_comp_same_traces (hE : EpochOk E) (h : XReach (setEpoch E) x) : ∃ s : CS N, CReach (setEpoch E) s ∧ s.log = x.st.log :=
  C103_same_traces (f := x.abs) hE (xreach_abs h).2

/-- C109: a finished operation that succeeded and was not cancelled has handed out each whole block of its input once, and nothing else. -/
theorem C109_comp_blocks_exactly_once (hE : EpochOk E) (h : XReach (setEpoch E) x) {l1 l2 : List Ev}
    (hl : x.st.log = l2 ++ l1) (hd : .destroy ∉ l1) (hf : .finalized true ∈ curOp l1) (hc : .finalize true ∉ curOp l1) :
    (offsets (curOp l1)).Perm ((List.range (opSize l1 / blockSize)).map (· * blockSize)) ∧ ∀ o, .failBlock o ∉ curOp l1 :=
  C103_blocks_exactly_once hE (xreach_abs h).2 hl hd hf hc

/-- C109: when a block at or beyond a multiple of the epoch is handed out, every block below the multiple has been handed out, and its callback has
returned. -/
theorem C109_comp_epoch_order {j : Nat} (hj : 20 ≤ j) (hj' : j < 64) (h : XReach (setEpoch (2 ^ j)) x)
    {l1 l2 : List Ev} {e : Ev} {o : Nat} (hl : x.st.log = l2 ++ e :: l1) (he : e = .block o ∨ e = .failBlock o)
    (hd : .destroy ∉ l1) {m o' : Nat} (hm : m * 2 ^ j ≤ o) (ho' : o' < m * 2 ^ j) (hb : o' % blockSize = 0) :
    o' ∈ offsets (curOp l1) ∧ .returned o' ∈ curOp l1 :=
  C103_epoch_order hj hj' (xreach_abs h).2 hl he hd hm ho' hb

/-- C109: when the finalize callback is called, `finalize` has been called for the operation, the callback has not been called for it before, and
every block callback has returned.  Its argument is `false` exactly if a block callback signalled an error. -/
theorem C109_comp_finalize_callback (hE : EpochOk E) (h : XReach (setEpoch E) x) {l1 l2 : List Ev} {ok : Bool}
    (hl : x.st.log = l2 ++ .finalized ok :: l1) (hd : .destroy ∉ l1) :
    (∃ c, .finalize c ∈ curOp l1) ∧ (∀ ok', .finalized ok' ∉ curOp l1) ∧
    (∀ o ∈ offsets (curOp l1), .returned o ∈ curOp l1) ∧ (ok = false ↔ ∃ o, .failBlock o ∈ curOp l1) :=
  C103_finalize_callback hE (xreach_abs h).2 hl hd

/-- C109: if nothing can happen, the threads have ended and the destructor is waiting for them to do so, or the user is not in a call and the
stream waits for `start` or `finalize`.  In both cases no thread is inside a critical section of the barrier, and neither is `interrupt`. -/
theorem C109_comp_no_deadlock (hE : EpochOk E) (hN : 0 < N) (h : XReach (setEpoch E) x) (hno : ∀ x', ¬ XStep (setEpoch E) x x') :
    ((.destroy ∈ x.st.log ∧ x.st.usr = .dsJoin ∧ ∀ t, (x.st.thr t).pc = .done) ∨
    (.destroy ∉ x.st.log ∧ x.st.usr = .idle ∧ (mayStart x.st.log ∨ mayFinalize x.st.log))) ∧
    x.bar.owner = none ∧ ∀ i, x.bar.ipc i = .out := by
  obtain ⟨hi, hr⟩ := xreach_abs h
  obtain ⟨h1, -, h3⟩ := FBar.progress hi.reach fun b hq => hno _ (.bar hq)
  exact ⟨C103_no_deadlock (f := x.abs) hE hN hr (xstuck_abs hi hno), h1, h3⟩

/-- C109: between calls of the user there are only finitely many steps (not counting spurious wakeups), in any order. -/
theorem C109_comp_terminates (hE : EpochOk E) (h : XReach (setEpoch E) x) : Acc (fun x' x => XStep (setEpoch E) x x') x :=
  xstep_acc_aux (C103_terminates hE (xreach_abs h).2) _ x rfl rfl h

/-- C109: every call of the user returns, whatever the schedule; the destructor after all threads have ended. -/
theorem C109_comp_calls_return (hE : EpochOk E) (hN : 0 < N) (h : XReach (setEpoch E) x) :
    Inevitable (XStep (setEpoch E)) (fun x' => x'.st.usr = .idle ∨ x'.st.usr = .dsJoin ∧ ∀ t, (x'.st.thr t).pc = .done) x :=
  x_inevitable (C103_calls_return hE hN (xreach_abs h).2) _ x rfl rfl h

/-- C109: once the user has called `finalize` the finalize callback is called, whatever the schedule. -/
theorem C109_comp_finalize_happens (hE : EpochOk E) (hN : 0 < N) (h : XReach (setEpoch E) x) {c : Bool}
    (hu : x.st.usr = .fnLock c ∨ x.st.usr = .idle ∧ .finalize c ∈ curOp x.st.log) :
    Inevitable (XStep (setEpoch E)) (fun x' => ∃ ok, .finalized ok ∈ curOp x'.st.log) x :=
  x_inevitable (C103_finalize_happens hE hN (xreach_abs h).2 hu) _ x rfl rfl h

/-- C109: once the user has called the destructor all threads end, whatever the schedule, also those that sleep in the barrier or are about to. -/
theorem C109_comp_quit (hE : EpochOk E) (hN : 0 < N) (h : XReach (setEpoch E) x) (hu : x.st.usr = .dsLock) :
    Inevitable (XStep (setEpoch E)) (fun x' => .destroy ∈ x'.st.log ∧ x'.st.usr = .dsJoin ∧ ∀ t, (x'.st.thr t).pc = .done) x :=
  x_inevitable (C103_quit hE hN (xreach_abs h).2 hu) _ x rfl rfl h

/-- C109: the two mutexes are taken in one order only: a thread that owns that of the barrier does not own that of the stream, and is in
`arrive_and_wait`; only `interrupt`, called by the destructor, runs with both. -/
theorem C109_comp_lock_order (hE : EpochOk E) (h : XReach (setEpoch E) x) :
    (∀ t, x.bar.owner = some (.inl t) → x.st.owner ≠ some (some t) ∧ (x.st.thr t).pc.atBar = true) ∧
    ∀ i, x.bar.owner = some (.inr i) → x.st.owner = some none := by
  obtain ⟨hi, hr⟩ := xreach_abs h
  have hm := C103_mutex hE hr
  have hown := hi.reach.own
  refine ⟨fun t ho => ?_, fun i ho => ?_⟩
  · have h1 := (hown.own t).2 ho
    have h2 := hi.thr t (by rintro h3; rw [h3] at h1; cases h1)
    refine ⟨fun h3 => ?_, fpc_inBar_atBar h2⟩
    have h4 : (x.st.thr t).pc.held = true := (hm.1 t).2 h3
    revert h2 h4
    cases (x.st.thr t).pc <;> simp [FPc.inBar, FPc.held]
  · have h1 := (hown.iown i).2 ho
    obtain rfl : i = 0 := Subsingleton.elim _ _
    have h2 := hi.usr (by rintro h3; rw [h3] at h1; cases h1)
    exact hm.2.1 (by show x.st.usr.held = true; rw [h2]; rfl)

end

/-! ## Decompression -/

section
variable {N : Nat} {x : YS N}

/-- C109: whatever the interleaving of the accesses, the user sees a trace that the stream could produce if the critical sections of the stream and
of the barrier were single steps. -/
theorem C109_decomp_same_traces (h : YReach x) : ∃ s : DS N, DReach s ∧ s.log = x.st.log := C104_same_traces (f := x.abs) (yreach_abs h).2

/-- C109: when the finalize callback of an operation that was not cancelled is called with `true`, the blocks whose decompression has ended,
successfully, are the blocks pushed in the operation, each as often as it was pushed. -/
theorem C109_decomp_blocks_exactly_once (h : YReach x) {l1 l2 : List DEv} (hl : x.st.log = l2 ++ .finalized true :: l1)
    (hd : .destroy ∉ l1) (hc : .finalize true ∉ dcurOp l1) :
    (ends (dcurOp l1)).Perm (pushes (dcurOp l1)) ∧ ∀ b, .ended b false ∉ dcurOp l1 :=
  C104_blocks_exactly_once (yreach_abs h).2 hl hd hc

/-- C109: when the finalize callback is called, `finalize` has been called for the operation, the callback has not been called for it before, and
every decompression that has begun has ended.  Its argument is `false` exactly if one of them has failed. -/
theorem C109_decomp_finalize_callback (h : YReach x) {l1 l2 : List DEv} {ok : Bool} (hl : x.st.log = l2 ++ .finalized ok :: l1)
    (hd : .destroy ∉ l1) :
    (∃ c, .finalize c ∈ dcurOp l1) ∧ (∀ ok', .finalized ok' ∉ dcurOp l1) ∧
    (ends (dcurOp l1)).Perm (begins (dcurOp l1)) ∧ (ok = false ↔ ∃ b, .ended b false ∈ dcurOp l1) :=
  C104_finalize_callback (yreach_abs h).2 hl hd

/-- C109: a callback that is called is the one given to the last call of `finalize`, and it has not been called since. -/
theorem C109_decomp_right_callback (h : YReach x) {l1 l2 : List CbEv} {y : Option Nat} (hl : x.st.cbs = l2 ++ .called y :: l1) :
    ∃ g l, y = some g ∧ l1 = .given g :: l := C104_right_callback (yreach_abs h).2 hl

/-- C109: if nothing can happen, the threads have ended and the destructor is waiting for them to do so, or the user is not in a call and the
stream waits for `start`, or for `push_block` and `finalize`; then no block waits for a thread that sleeps.  In all cases no thread is inside a
critical section of the barrier, and neither is `interrupt`. -/
theorem C109_decomp_no_deadlock (hN : 0 < N) (h : YReach x) (hno : ∀ x', ¬ YStep x x') :
    ((.destroy ∈ x.st.log ∧ x.st.usr = .dsJoin ∧ ∀ t, (x.st.thr t).pc = .done) ∨
    (.destroy ∉ x.st.log ∧ x.st.usr = .idle ∧ (dmayStart x.st.log ∨ (dmayPush x.st.log ∧
      (ends (dcurOp x.st.log)).Perm (begins (dcurOp x.st.log)) ∧
      ((∀ b, .ended b false ∉ dcurOp x.st.log) → (ends (dcurOp x.st.log)).Perm (pushes (dcurOp x.st.log))))))) ∧
    x.bar.owner = none ∧ ∀ i, x.bar.ipc i = .out := by
  obtain ⟨hi, hr⟩ := yreach_abs h
  obtain ⟨h1, -, h3⟩ := FBar.progress hi.reach fun b hq => hno _ (.bar hq)
  exact ⟨C104_no_deadlock (f := x.abs) hN hr (ystuck_abs hi hno), h1, h3⟩

/-- C109: between calls of the user there are only finitely many steps (not counting spurious wakeups), in any order. -/
theorem C109_decomp_terminates (h : YReach x) : Acc (fun x' x => YStep x x') x :=
  ystep_acc_aux (C104_terminates (yreach_abs h).2) _ x rfl rfl h

/-- C109: every call of the user returns, whatever the schedule; the destructor after all threads have ended. -/
theorem C109_decomp_calls_return (hN : 0 < N) (h : YReach x) :
    Inevitable YStep (fun x' => x'.st.usr = .idle ∨ x'.st.usr = .dsJoin ∧ ∀ t, (x'.st.thr t).pc = .done) x :=
  y_inevitable (C104_calls_return hN (yreach_abs h).2) _ x rfl rfl h

/-- C109: once the user has called `finalize` the finalize callback is called, whatever the schedule. -/
theorem C109_decomp_finalize_happens (hN : 0 < N) (h : YReach x) {c : Bool}
    (hu : (∃ g, x.st.usr = .fnLock c g) ∨ x.st.usr = .idle ∧ .finalize c ∈ dcurOp x.st.log) :
    Inevitable YStep (fun x' => ∃ ok, .finalized ok ∈ dcurOp x'.st.log) x :=
  y_inevitable (C104_finalize_happens hN (yreach_abs h).2 hu) _ x rfl rfl h

/-- C109: once the user has called the destructor all threads end, whatever the schedule, also those that sleep in the barrier or are about to. -/
theorem C109_decomp_quit (hN : 0 < N) (h : YReach x) (hu : x.st.usr = .dsLock) :
    Inevitable YStep (fun x' => .destroy ∈ x'.st.log ∧ x'.st.usr = .dsJoin ∧ ∀ t, (x'.st.thr t).pc = .done) x :=
  y_inevitable (C104_quit hN (yreach_abs h).2 hu) _ x rfl rfl h

/-- C109: the two mutexes are taken in one order only: a thread that owns that of the barrier does not own that of the stream, and is in
`arrive_and_wait`; only `interrupt`, called by the destructor, runs with both. -/
theorem C109_decomp_lock_order (h : YReach x) :
    (∀ t, x.bar.owner = some (.inl t) → x.st.owner ≠ some (some t) ∧ (x.st.thr t).pc.atBar = true) ∧
    ∀ i, x.bar.owner = some (.inr i) → x.st.owner = some none := by
  obtain ⟨hi, hr⟩ := yreach_abs h
  have hm := C104_mutex hr
  have hown := hi.reach.own
  refine ⟨fun t ho => ?_, fun i ho => ?_⟩
  · have h1 := (hown.own t).2 ho
    have h2 := hi.thr t (by rintro h3; rw [h3] at h1; cases h1)
    refine ⟨fun h3 => ?_, gpc_inBar_atBar h2⟩
    have h4 : (x.st.thr t).pc.held = true := (hm.1 t).2 h3
    revert h2 h4
    cases (x.st.thr t).pc <;> simp [GPc.inBar, GPc.held]
  · have h1 := (hown.iown i).2 ho
    obtain rfl : i = 0 := Subsingleton.elim _ _
    have h2 := hi.usr (by rintro h3; rw [h3] at h1; cases h1)
    exact hm.2.1 (by show x.st.usr.held = true; rw [h2]; rfl)

end

/-! ## Both streams -/

section
variable {f g : ChunkFn} (hc : ChunkContract f g) {N N' E : Nat} (hE : EpochOk E) (inp out0 : List Byte)
  (blk : Nat → Block) (nd : Bool)
  -- a finished operation of a compression stream on the buffer `inp`, not cancelled
  {cs : XS N} (hcs : XReach (setEpoch E) cs) {lc2 lc1 : List Ev} {okc : Bool}
  (hcl : cs.st.log = lc2 ++ .finalized okc :: lc1) (hcd : .destroy ∉ lc1) (hcc : .finalize true ∉ curOp lc1)
  (hsz : opSize lc1 = inp.length)
  -- the blocks it has emitted
  (hblk : ∀ o ∈ offsets (curOp lc1), ∃ ptr abuf rets0 sizes0 buf0, rets0.length = 16 ∧ buf0.length = 2 ^ 20 ∧
    compBlock (trivialChunked f) ptr abuf inp o rets0 sizes0 buf0 = .ok (blk o))
  (hfail : ∀ o, .failBlock o ∈ curOp lc1 → (blk o).offset = 2 ^ 64 - 1)
  (hnd : nd = true ∨ ∀ o ∈ offsets (curOp lc1), ∀ i < 16, (blk o).sizes[i]? ≠ some 65536)

include hc hE hcs hcl hcd hsz hblk hcc hfail hnd

/-- C39: `C39_round_trip_partial` for every interleaving of the single accesses of both streams and of their barriers.  For builds with `NDEBUG`,
or if no chunk is stored raw; missing: other builds (see `C36_block_round_trip_debug`: there the program aborts). -/
theorem C39_full_round_trip_partial
    (hout : inp.length / blockSize * blockSize ≤ out0.length)
    {ds : YS N'} (hds : YReach ds) {ld2 ld1 : List DEv} {okd : Bool} (hdl : ds.st.log = ld2 ++ .finalized okd :: ld1)
    (hdd : .destroy ∉ ld1) (hdc : .finalize true ∉ dcurOp ld1)
    (hpush : (attempts (dcurOp ld1)).Perm (offsets (curOp lc1)))
    {out : List Byte} (hrun : MemRun (handleBlk nd g blk) out0 (dcurOp ld1) out) :
    okc = true ∧ okd = true ∧
    out = inp.take (inp.length / blockSize * blockSize) ++ out0.drop (inp.length / blockSize * blockSize) :=
  C39_fine_round_trip_partial hc hE inp out0 blk nd (xreach_abs hcs).2 hcl hcd hcc hsz hblk hfail hnd hout (yreach_abs hds).2 hdl hdd hdc
    hpush hrun

end

/-! ## Instances -/

/-- Two threads, two blocks and five bytes, an epoch of one block: the threads meet in the barrier of the epoch and in the last one. -/
def fullActs : List (FAct 2) := fineTurns 10 ++ .start (2 * 2 ^ 20 + 5) :: fineTurns 90 ++ .fin false :: fineTurns 50

theorem fullActs_log : ((XS.init 2).acts (setEpoch (2 ^ 20)) fullActs).st.log = exLog := by decide +kernel

/-- A finished operation -/
example : ∃ x : XS 2, XReach (setEpoch (2 ^ 20)) x ∧ .finalized true ∈ curOp x.st.log ∧ (offsets (curOp x.st.log)).Perm [0, 1048576] := by
  have hx : XReach (setEpoch (2 ^ 20)) ((XS.init 2).acts (setEpoch (2 ^ 20)) fullActs) := xacts_reach fullActs .init
  have := (C109_comp_blocks_exactly_once (l2 := []) exEpoch hx fullActs_log (by decide) (by decide) (by decide)).1
  refine ⟨_, hx, by rw [fullActs_log]; decide, ?_⟩
  rw [fullActs_log]
  exact this.trans (by decide)

/-- An operation with a thread asleep in the barrier of the epoch, and another one about to arrive there -/
def fullEpoch : List (FAct 2) := fineTurns 10 ++ .start (2 * 2 ^ 20 + 5) :: fineTurns 13

/-- The destructor called when one thread owns the mutex of the barrier and the other one sleeps in it -/
theorem fullKill_state : let x := (XS.init 2).acts (setEpoch (2 ^ 20)) (fullEpoch ++ [.go 0, .kill])
    x.st.usr = .dsLock ∧ x.bar.owner = some (.inl 0) ∧ x.bar.pc 0 = .locked ∧ x.bar.pc 1 = .asleep 0 := by decide +kernel

example : ∃ x : XS 2, XReach (setEpoch (2 ^ 20)) x ∧ x.bar.owner = some (.inl 0) ∧ x.bar.pc 1 = .asleep 0 ∧
    Inevitable (XStep (setEpoch (2 ^ 20))) (fun x' => .destroy ∈ x'.st.log ∧ x'.st.usr = .dsJoin ∧ ∀ t, (x'.st.thr t).pc = .done) x :=
  have h : XReach (setEpoch (2 ^ 20)) ((XS.init 2).acts (setEpoch (2 ^ 20)) (fullEpoch ++ [.go 0, .kill])) := xacts_reach _ .init
  ⟨_, h, fullKill_state.2.1, fullKill_state.2.2.2, C109_comp_quit exEpoch (by decide) h fullKill_state.1⟩

/-- The destructor inside `interrupt`, which owns both mutexes -/
example : ∃ x : XS 2, XReach (setEpoch (2 ^ 20)) x ∧ x.bar.owner = some (.inr 0) ∧ x.bar.pc 1 = .asleep 0 ∧ x.st.owner = some none := by
  have h : XReach (setEpoch (2 ^ 20)) ((XS.init 2).acts (setEpoch (2 ^ 20)) (fullEpoch ++ .kill :: List.replicate 5 .usr)) := xacts_reach _ .init
  have ho : let x := (XS.init 2).acts (setEpoch (2 ^ 20)) (fullEpoch ++ .kill :: List.replicate 5 .usr)
    x.bar.owner = some (.inr 0) ∧ x.bar.pc 1 = .asleep 0 := by decide +kernel
  exact ⟨_, h, ho.1, ho.2, (C109_comp_lock_order exEpoch h).2 0 ho.1⟩

/-- The destructor has ended the threads. -/
example : ∃ x : XS 2, XReach (setEpoch (2 ^ 20)) x ∧ x.st.usr = .dsJoin ∧ ∀ t, (x.st.thr t).pc = .done := by
  have h : XReach (setEpoch (2 ^ 20)) ((XS.init 2).acts (setEpoch (2 ^ 20)) (fullEpoch ++ .kill :: fineTurns 40)) := xacts_reach _ .init
  exact ⟨_, h, by decide +kernel⟩

/-- An operation of a decompression stream -/
def dfullActs : List (GAct 2) :=
  .start 100 :: dfineTurns 12 ++ .push 7 :: dfineTurns 12 ++ .push 8 :: dfineTurns 12 ++ .fin false 5 :: dfineTurns 60

theorem dfullActs_log : ((YS.init 2 0).acts dfullActs).st.log = .finalized true :: dfineOp1 ∧
    ((YS.init 2 0).acts dfullActs).st.cbs = [.called (some 5), .given 5] := by decide +kernel

example : (∃ x : YS 2, YReach x ∧ x.st.log = .finalized true :: dfineOp1) ∧ (ends (dcurOp dfineOp1)).Perm [7, 8] := by
  have hx : YReach ((YS.init 2 0).acts dfullActs) := yacts_reach dfullActs .init
  exact ⟨⟨_, hx, dfullActs_log.1⟩,
    (C109_decomp_blocks_exactly_once (l2 := []) hx dfullActs_log.1 (by decide) (by decide)).1.trans (by decide)⟩

/-- Its callback -/
example : ∃ x : YS 2, YReach x ∧ x.st.cbs = [.called (some 5), .given 5] ∧ ∃ g l, some 5 = some g ∧ [CbEv.given 5] = .given g :: l := by
  have hx : YReach ((YS.init 2 0).acts dfullActs) := yacts_reach dfullActs .init
  exact ⟨_, hx, dfullActs_log.2, C109_decomp_right_callback (l2 := []) hx dfullActs_log.2⟩

/-- Another one, in which a block fails -/
def dfullFail : List (GAct 2) :=
  .start 200 :: dfineTurns 14 ++ .push 9 :: dfineTurns 10 ++ List.replicate 12 (.bad 0) ++ List.replicate 12 (.bad 1) ++ .push 10 :: dfineTurns 12 ++
  .fin false 6 :: dfineTurns 60

theorem dfullFail_log : ((YS.init 2 0).acts dfullFail).st.log = .finalized false :: dfineOp2 := by decide +kernel

example : (∃ x : YS 2, YReach x ∧ x.st.log = .finalized false :: dfineOp2) ∧ ∃ b, .ended b false ∈ dcurOp dfineOp2 := by
  have hx : YReach ((YS.init 2 0).acts dfullFail) := yacts_reach dfullFail .init
  exact ⟨⟨_, hx, dfullFail_log⟩, (C109_decomp_finalize_callback (l2 := []) hx dfullFail_log (by decide)).2.2.2.1 rfl⟩

/-- A thread asleep in the barrier, the other one inside its critical section, when the destructor is called -/
def dfullKill : List (GAct 2) := .start 100 :: dfineTurns 12 ++ .fin false 5 :: dfineTurns 16 ++ [.kill]

theorem dfullKill_state : let x := (YS.init 2 0).acts dfullKill
    x.st.usr = .dsLock ∧ x.bar.owner = some (.inl 0) ∧ x.bar.pc 1 = .asleep 0 := by decide +kernel

example : ∃ x : YS 2, YReach x ∧ x.bar.owner = some (.inl 0) ∧ x.bar.pc 1 = .asleep 0 ∧
    Inevitable YStep (fun x' => .destroy ∈ x'.st.log ∧ x'.st.usr = .dsJoin ∧ ∀ t, (x'.st.thr t).pc = .done) x :=
  have h : YReach ((YS.init 2 0).acts dfullKill) := yacts_reach _ .init
  ⟨_, h, dfullKill_state.2.1, dfullKill_state.2.2, C109_decomp_quit (by decide) h dfullKill_state.1⟩

end Lib842.Props
