import Verif.Proofs.CryptodevThreads
/-!
# Properties of the hardware wrapper used by several threads

C79.
-/

namespace Lib842.Props
open Lib842 Spec

/-- C79: the trees of calls used here are the functions of the model for one thread. -/
theorem C79_one_thread (info : Bool) (junk : BitVec 16) (s : DevState) :
    SysM.bind (getCtxP info junk s.keyErr s.keyValid s.slot).alone (fun x => SysM.pure (x.1, { s with slot := x.2 })) =
      getThreadCtx' info junk s ∧
    SysM.bind (destroyP s.slot).alone (fun _ => SysM.pure { s with slot := none }) = destroyThreadCtx s :=
  ⟨getCtxP_alone info junk s, destroyP_alone s⟩

/-- C79: however the calls of any number of threads are interleaved, and whichever of them fail,
every thread makes requests only on, and closes, finishes and frees only, what it has created itself
and not released yet; so no thread uses the session of another one, or one that has ended. -/
theorem C79_isolated_partial {info : Bool} {s : HwState} (h : HwReach info s)
    (hk : ∀ t e, (t, Sys.tssCreate, Resp.fail e) ∉ s.tr) : Isolated s.tr :=
  (h.inv hk).iso

/-- C79: between its calls a thread holds nothing, or exactly one descriptor with one session and the
memory of its context. -/
theorem C79_idle_holds {info : Bool} {s : HwState} (h : HwReach info s)
    (hk : ∀ t e, (t, Sys.tssCreate, Resp.fail e) ∉ s.tr) {t : Nat} {slot : Slot842} (ht : s.th t = .idle slot) (x : Held) :
    holder s.tr x = some t ↔
      ∃ p ctx, slot = some (p, ctx) ∧ (x = .mem p ∨ x = .fd ctx.cfd ∨ x = .ses ctx.cfd ctx.ses) := by
  have := (h.inv hk).th t
  rw [ht] at this
  refine (this x).trans ?_
  cases slot with
  | none => simp [slotHolds]
  | some pc =>
    obtain ⟨p, ctx⟩ := pc
    constructor
    · intro h
      exact ⟨p, ctx, rfl, by simpa [slotHolds, ctxHolds] using h⟩
    · rintro ⟨p', ctx', e, h⟩
      cases e
      simpa [slotHolds, ctxHolds] using h

/-- C79: two threads never have the same descriptor. -/
theorem C79_distinct {info : Bool} {s : HwState} (h : HwReach info s)
    (hk : ∀ t e, (t, Sys.tssCreate, Resp.fail e) ∉ s.tr) {t u p q : Nat} {ctx ctx' : CtxDev} (hne : t ≠ u)
    (ht : s.th t = .using ctx (some (p, ctx)) ∨ s.th t = .idle (some (p, ctx)))
    (hu : s.th u = .using ctx' (some (q, ctx')) ∨ s.th u = .idle (some (q, ctx'))) :
    ctx.cfd ≠ ctx'.cfd ∧ p ≠ q := by
  have key : ∀ (t p : Nat) (ctx : CtxDev), (s.th t = .using ctx (some (p, ctx)) ∨ s.th t = .idle (some (p, ctx))) →
      holder s.tr (.fd ctx.cfd) = some t ∧ holder s.tr (.mem p) = some t := by
    intro t p ctx ht
    have hl : IsList (heldBy s.tr t) (slotHolds (some (p, ctx))) := by
      have := (h.inv hk).th t
      rcases ht with ht | ht <;> rw [ht] at this
      · exact this.1
      · exact this
    exact ⟨(hl _).2 (by simp [slotHolds, ctxHolds]), (hl _).2 (by simp [slotHolds])⟩
  obtain ⟨a1, a2⟩ := key t p ctx ht
  obtain ⟨b1, b2⟩ := key u q ctx' hu
  refine ⟨fun e => ?_, fun e => ?_⟩
  · rw [e, b1] at a1; exact hne (Option.some.inj a1).symm
  · rw [e, b2] at a2; exact hne (Option.some.inj a2).symm

/-- C79: a context that is used is the one the thread has stored. -/
theorem C79_uses_stored {info : Bool} {s : HwState} (h : HwReach info s)
    (hk : ∀ t e, (t, Sys.tssCreate, Resp.fail e) ∉ s.tr) {t : Nat} {ctx : CtxDev} {slot : Slot842}
    (ht : s.th t = .using ctx slot) : ∃ p, slot = some (p, ctx) := by
  have := (h.inv hk).th t
  rw [ht] at this
  exact this.2

/-- C79: a thread that has ended holds nothing. -/
theorem C79_released {info : Bool} {s : HwState} (h : HwReach info s)
    (hk : ∀ t e, (t, Sys.tssCreate, Resp.fail e) ∉ s.tr) {t : Nat} (ht : s.th t = .ended) (x : Held) :
    holder s.tr x ≠ some t := by
  have := (h.inv hk).th t
  rw [ht] at this
  exact fun e => absurd ((this x).1 e) (by simp)

/-- C79: nothing undefined happens. -/
theorem C79_defined {info : Bool} {s : HwState} (h : HwReach info s)
    (hk : ∀ t e, (t, Sys.tssCreate, Resp.fail e) ∉ s.tr) (t : Nat) : s.th t ≠ .getting .ub ∧ s.th t ≠ .exiting .ub := by
  have := (h.inv hk).th t
  refine ⟨fun e => ?_, fun e => ?_⟩ <;> rw [e] at this <;> exact this

/-- C79: if the key cannot be created, the first call does something undefined, and so do those of the other threads:
the failure is not remembered either (compare C54). -/
theorem C79_key_failure_false (info : Bool) (t u e : Nat) (htu : u ≠ t) :
    ∃ s, HwReach info s ∧ s.tr = [(t, .tssCreate, .fail e)] ∧ s.th t = .getting .ub ∧ s.th u = .getting .ub := by
  have h1 := HwReach.step (info := info) .init
    (HwStep.first (t := t) (slot := none) (junk := 0) (r := .fail e) rfl rfl)
  refine ⟨_, HwReach.step h1 (HwStep.enter (t := u) (slot := none) (junk := 0) ?_ rfl), rfl, ?_, ?_⟩
  · show (if u = t then _ else _) = _
    rw [if_neg htu]
    rfl
  · show (if t = u then _ else if t = t then _ else _) = _
    rw [if_neg (Ne.symm htu), if_pos rfl]
    rfl
  · show (if u = u then _ else _) = _
    rw [if_pos rfl]
    rfl

/-- C79: two threads interleaved; a third one gets the descriptor of the first again after that has
ended.  The calls so far, newest first: -/
def exThreads : ThreadTr :=
  [(2, .crypt 5 1, .ok 0), (2, .tssSet 100, .ok 0), (2, .gsession 5, .ok 1), (2, .setfd 5, .ok 0), (2, .open, .ok 5),
   (2, .malloc, .ok 100), (0, .free 100, .ok 0), (0, .close 5, .ok 0), (0, .fsession 5 1, .ok 0), (1, .crypt 6 1, .ok 0),
   (1, .tssSet 101, .ok 0), (0, .crypt 5 1, .ok 0), (0, .tssSet 100, .ok 0), (1, .gsession 6, .ok 1),
   (0, .gsession 5, .ok 1), (1, .setfd 6, .ok 0), (0, .setfd 5, .ok 0), (1, .open, .ok 6), (1, .malloc, .ok 101),
   (0, .open, .ok 5), (0, .malloc, .ok 100), (0, .tssCreate, .ok 0)]

example : ∃ s, HwReach false s ∧ s.tr = exThreads ∧ s.th 0 = .ended ∧ s.th 1 = .idle (some (101, ⟨6, 1, 0⟩)) ∧
    s.th 2 = .idle (some (100, ⟨5, 1, 0⟩)) := by
  have h := HwReach.step (info := false) .init (HwStep.first (t := 0) (slot := none) (junk := 0) (r := .ok 0) rfl rfl)
  have h := HwReach.step h (HwStep.sys (t := 0) (r := .ok 100) rfl (by intro x hx; cases hx; rfl))
  have h := HwReach.step h (HwStep.sys (t := 0) (r := .ok 5) rfl (by intro x hx; cases hx; rfl))
  have h := HwReach.step h (HwStep.enter (t := 1) (junk := 0) rfl rfl)
  have h := HwReach.step h (HwStep.sys (t := 1) (r := .ok 101) rfl (by intro x hx; cases hx; rfl))
  have h := HwReach.step h (HwStep.sys (t := 1) (r := .ok 6) rfl (by intro x hx; cases hx; rfl))
  have h := HwReach.step h (HwStep.sys (t := 0) (r := .ok 0) rfl (by intro x hx; cases hx))
  have h := HwReach.step h (HwStep.sys (t := 1) (r := .ok 0) rfl (by intro x hx; cases hx))
  have h := HwReach.step h (HwStep.sys (t := 0) (r := .ok 1) rfl (by intro x hx; cases hx; rfl))
  have h := HwReach.step h (HwStep.sys (t := 1) (r := .ok 1) rfl (by intro x hx; cases hx; rfl))
  have h := HwReach.step h (HwStep.sys (t := 0) (r := .ok 0) rfl (by intro x hx; cases hx))
  have h := HwReach.step h (HwStep.got (t := 0) rfl)
  have h := HwReach.step h (HwStep.request (t := 0) (r := .ok 0) rfl)
  have h := HwReach.step h (HwStep.sys (t := 1) (r := .ok 0) rfl (by intro x hx; cases hx))
  have h := HwReach.step h (HwStep.got (t := 1) rfl)
  have h := HwReach.step h (HwStep.request (t := 1) (r := .ok 0) rfl)
  have h := HwReach.step h (HwStep.exit (t := 0) rfl)
  have h := HwReach.step h (HwStep.exitSys (t := 0) (r := .ok 0) rfl (by intro x hx; cases hx))
  have h := HwReach.step h (HwStep.exitSys (t := 0) (r := .ok 0) rfl (by intro x hx; cases hx))
  have h := HwReach.step h (HwStep.exitSys (t := 0) (r := .ok 0) rfl (by intro x hx; cases hx))
  have h := HwReach.step h (HwStep.exited (t := 0) rfl)
  have h := HwReach.step h (HwStep.enter (t := 2) (junk := 0) rfl rfl)
  have h := HwReach.step h (HwStep.sys (t := 2) (r := .ok 100) rfl (by intro x hx; cases hx; rfl))
  have h := HwReach.step h (HwStep.sys (t := 2) (r := .ok 5) rfl (by intro x hx; cases hx; rfl))
  have h := HwReach.step h (HwStep.sys (t := 2) (r := .ok 0) rfl (by intro x hx; cases hx))
  have h := HwReach.step h (HwStep.sys (t := 2) (r := .ok 1) rfl (by intro x hx; cases hx; rfl))
  have h := HwReach.step h (HwStep.sys (t := 2) (r := .ok 0) rfl (by intro x hx; cases hx))
  have h := HwReach.step h (HwStep.got (t := 2) rfl)
  have h := HwReach.step h (HwStep.request (t := 2) (r := .ok 0) rfl)
  exact ⟨_, h, rfl, rfl, rfl, rfl⟩

/-- The holders in this example -/
example : holder exThreads (.fd 5) = some 2 ∧ holder exThreads (.fd 6) = some 1 ∧ holder exThreads (.mem 101) = some 1 ∧
    ¬ Isolated ((1, .crypt 5 1, .ok 0) :: exThreads) := by
  refine ⟨rfl, rfl, rfl, fun h => ?_⟩
  have := h.2 (.fd 5) (by simp [Sys.uses])
  cases this

/-! ## `get_hw842_implementation` -/

/-- Two threads are about to access the same field, one of them to write it. -/
def ImplRace (s : ImplState) : Prop :=
  ∃ t u f w, t ≠ u ∧ (s.pc t).access = some (f, true) ∧ (s.pc u).access = some (f, w)

/-- C79 is false for the function that returns the table of functions: it fills in the alignments on
the first call without any synchronisation, so that two threads that call it at the beginning have
a data race. -/
theorem C79_implementation_race_false : ∃ s, ImplReach .init s ∧ ImplRace s := by
  refine ⟨_, ImplReach.step .init (ImplStep.readReq (t := 0) rfl), 0, 1, false, false, by decide, rfl, rfl⟩

/-- C79: a thread can even see the alignment change: both threads have found the field empty, and the
second one writes after the first has returned. -/
theorem C79_implementation_changes_false : ∃ s s', ImplReach .init s ∧ s.pc 0 = .done ∧ s.req = 0x10000 ∧ ImplStep s s' ∧
    s'.req = 128 := by
  have h := ImplReach.step (ImplReach.init (s₀ := .init)) (ImplStep.readReq (t := 0) rfl)
  have h := ImplReach.step h (ImplStep.readReq (t := 1) rfl)
  have h := ImplReach.step h (ImplStep.writeReq (t := 0) (v := 0x10000) rfl)
  have h := ImplReach.step h (ImplStep.readPref (t := 0) rfl)
  have h := ImplReach.step h (ImplStep.writePref (t := 0) (v := 4096) rfl)
  exact ⟨_, _, h, rfl, rfl, ImplStep.writeReq (t := 1) (v := 128) rfl, rfl⟩

/-- C79: the alignment that is written is never 0, so that it is written only once by a single
thread. -/
theorem C79_alignment_positive {info : Bool} {junk : BitVec 16} {s s' : DevState} {env : SysTr → Sys → Resp}
    {tr tr' : SysTr} {n : Nat} (h : requiredAlignment info junk s env tr = some ((n, s'), tr')) : 0 < n ∧ n ≤ 65536 := by
  unfold requiredAlignment at h
  simp only [bind, SysM.bind] at h
  split at h
  · cases h
  · rename_i a tr1 _
    obtain ⟨r, s1⟩ := a
    cases r with
    | error e => cases h; omega
    | ok ctx =>
      cases h
      have := ctx.alignmask.isLt
      omega

/-- C79: if one call has been completed before the other threads make theirs (both fields are set,
and no thread is in the middle of the function), there is no data race, and nothing changes. -/
theorem C79_implementation_partial {s₀ s : ImplState} (hr : s₀.req ≠ 0) (hp : s₀.pref ≠ 0)
    (hpc : ∀ t, s₀.pc t = .readReq ∨ s₀.pc t = .done) (h : ImplReach s₀ s) :
    ¬ ImplRace s ∧ s.req = s₀.req ∧ s.pref = s₀.pref := by
  obtain ⟨h1, h2, h3⟩ := implReach_ready hr hp
    (fun t => by rcases hpc t with e | e <;> rw [e] <;> simp) h
  refine ⟨?_, h1, h2⟩
  rintro ⟨t, u, f, w, _, ht, _⟩
  have := h3 t
  cases hc : s.pc t <;> rw [hc] at ht this <;> simp_all [ImplPc.access]

/-- The state after one thread has called the function on a machine with 128-byte alignment -/
example : ∃ s, ImplReach .init s ∧ s.req = 128 ∧ s.pref = 4096 ∧ s.pc 0 = .done ∧ ∀ t, s.pc t = .readReq ∨ s.pc t = .done := by
  have h := ImplReach.step (ImplReach.init (s₀ := .init)) (ImplStep.readReq (t := 0) rfl)
  have h := ImplReach.step h (ImplStep.writeReq (t := 0) (v := 128) rfl)
  have h := ImplReach.step h (ImplStep.readPref (t := 0) rfl)
  have h := ImplReach.step h (ImplStep.writePref (t := 0) (v := 4096) rfl)
  refine ⟨_, h, rfl, rfl, rfl, fun t => ?_⟩
  by_cases e : t = 0
  · right; subst e; rfl
  · left; simp [ImplState.setPc, ImplState.init, e]

end Lib842.Props
