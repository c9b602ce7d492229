import Verif.Proofs.BarrierFine
import Verif.Props.Sync
/-!
# C101: the barrier, one access at a time
-/

namespace Lib842.Props
open Lib842
variable {N M : Nat}

/-- C101: as long as nobody has set the flag of `interrupt`, a thread that has returned `r` times has returned only after every thread had entered
`r` times. -/
theorem C101_safe {f : FBar N M} (h : f.Reach) (hi : f.intr = false) (t u : Fin N) : f.ret t ≤ f.arr u := by
  obtain ⟨a, hr, hrel⟩ := FBar.rel h
  have hai : a.bar.intr = false := by
    rw [← hrel.ifree, hi]
    intro i hs
    rw [hrel.iset i hs] at hi
    cases hi
  have h1 := C40_barrier_safe hr hai t u
  have h2 := hrel.ret t
  have h3 := hrel.arr u
  omega

/-- C101: whatever the order, the threads make at most `(2 N + 5) (N + M)` steps as long as no call begins and there is no spurious wakeup. -/
theorem C101_ends {k : Nat} {f f' : FBar N M} (h : FBar.Run k f f') : k ≤ (2 * N + 5) * (N + M) := by
  have h1 := FBar.run_weight h
  have h2 := f.weight_le
  omega

/-- C101: when they can go no further, every call has returned but those of threads that sleep because the barrier is not interrupted and some thread
outside has made fewer calls. -/
theorem C101_no_deadlock {f : FBar N M} (h : f.Reach) (hs : ∀ f', ¬ FBar.Quiet f f') :
    (∀ i, f.ipc i = .out) ∧
      ∀ t, f.pc t = .out ∨ (∃ g, f.pc t = .asleep g) ∧ f.intr = false ∧ ∃ u, f.pc u = .out ∧ f.arr u < f.arr t := by
  obtain ⟨a, hr, hrel⟩ := FBar.rel h
  obtain ⟨ho, hpc, hip⟩ := FBar.stuck hrel hs
  have hai : f.intr = a.bar.intr := hrel.ifree fun i hc => by rw [hip i] at hc; cases hc
  have hpre : ∀ u, f.arr u = a.arr u := by
    intro u
    have := hrel.arr u
    rcases hpc u with h1 | ⟨g, h1⟩ <;> rw [h1] at this <;> exact this
  refine ⟨hip, fun t => ?_⟩
  rcases hpc t with h1 | ⟨g, h1⟩
  · exact .inl h1
  right
  have hat : a.bar.wt t = .asleep g := by rw [hrel.wt t, h1]; rfl
  have hint : f.intr = false := by
    rw [hai]
    cases hb : a.bar.intr with
    | false => rfl
    | true =>
      rcases (C41_interrupt hr hb t).1 with h2 | ⟨g', h2, _⟩ <;> rw [hat] at h2 <;> cases h2
  refine ⟨⟨g, h1⟩, hint, ?_⟩
  have hne : ∃ u, a.arr u < a.arr t := by
    by_contra hc
    have hall : ∀ u, a.arr t ≤ a.arr u := fun u => Nat.le_of_not_lt fun hlt => hc ⟨u, hlt⟩
    rcases C40_barrier_releases hr t hall with h2 | ⟨g', h2, _⟩ <;> rw [hat] at h2 <;> cases h2
  obtain ⟨u, hu⟩ := hne
  refine ⟨u, ?_, by rw [hpre, hpre]; exact hu⟩
  rcases hpc u with h2 | ⟨g', h2⟩
  · exact h2
  · exfalso
    have hau : a.bar.wt u = .asleep g' := by rw [hrel.wt u, h2]; rfl
    rcases barSys_reach hr with hb | ⟨G, hb⟩
    · exact hb.2 u g' hau
    · have e1 := hb.bar.ph t
      have e2 := hb.bar.ph u
      have : a.arr u = G := by omega
      rcases hb.bar.old u this with h3 | ⟨_, _, h3⟩ <;> rw [hau] at h3 <;> cases h3

/-- C101: if all threads have entered equally often, or the barrier has been interrupted, all calls return, in every order of the steps. -/
theorem C101_returns {k : Nat} {f f' : FBar N M} (h : f.Reach) (hr : FBar.Run k f f') (hs : ∀ f'', ¬ FBar.Quiet f' f'')
    (hall : (∀ t u, f'.arr t = f'.arr u) ∨ f'.intr = true) (t : Fin N) : f'.pc t = .out := by
  rcases (C101_no_deadlock (FBar.run_reach hr h) hs).2 t with h1 | ⟨_, h2, u, _, h3⟩
  · exact h1
  · rcases hall with h4 | h4
    · have := h4 t u
      omega
    · rw [h2] at h4; cases h4

/-- C101: critical sections may be taken as single steps, as C40 and C41 do: each state is one of that model, with the same threads asleep, and
the same in all other respects whenever the mutex is free. -/
theorem C101_atomic {f : FBar N M} (h : f.Reach) :
    ∃ a : BarSys N, BarSys.Reach a ∧ (∀ t g, a.bar.wt t = .asleep g ↔ f.pc t = .asleep g) ∧
      (∀ t, f.ret t ≤ a.ret t ∧ a.arr t ≤ f.arr t) ∧
      (f.owner = none → a.bar.count = f.count ∧ a.bar.gen = f.gen ∧ a.bar.intr = f.intr ∧ a.arr = f.arr ∧ a.ret = f.ret) := by
  obtain ⟨a, hr, hrel⟩ := FBar.rel h
  refine ⟨a, hr, fun t g => ?_, fun t => ?_, fun ho => ?_⟩
  · rw [hrel.wt t]
    cases f.pc t <;> simp [BarPc.co]
  · have h1 := hrel.ret t
    have h2 := hrel.arr t
    omega
  · have hf := hrel.free_none ho
    have hh : ∀ t, (f.pc t).left = 0 ∧ (f.pc t).pre = 0 := by
      intro t
      have := hrel.notHolds ho t
      revert this
      cases f.pc t <;> simp [BarPc.holds, BarPc.left, BarPc.pre]
    refine ⟨hf.1.symm, hf.2.symm, ?_, ?_, ?_⟩
    · refine (hrel.ifree fun i hc => ?_).symm
      have := (hrel.iown i).1 (by rw [hc]; rfl)
      rw [ho] at this
      cases this
    · funext t
      have := hrel.arr t
      rw [(hh t).2] at this
      exact this.symm
    · funext t
      have := hrel.ret t
      rw [(hh t).1] at this
      exact this

/-! Two threads: the first falls asleep, the second lets both go. -/

example : ∃ f : FBar 2 0, f.Reach ∧ f.ret 0 = 1 ∧ f.ret 1 = 1 ∧ f.gen = 1 := by
  refine ⟨_, .step (.step (.step (.step (.step (.step (.step (.step (.step (.step (.step (.step (.step .init
    (.lock (t := 0) rfl rfl))
    (.countOther (t := 0) rfl (by decide)))
    (.readGen (t := 0) rfl))
    (.predFalse (t := 0) (g := 0) (.inl rfl) (by decide)))
    (.lock (t := 1) rfl rfl))
    (.countLast (t := 1) rfl (by decide)))
    (.gen (t := 1) rfl))
    (.zero (t := 1) rfl))
    (.notify (t := 1) rfl))
    (.unlock (t := 1) rfl))
    (.relock (t := 0) (g := 0) rfl rfl))
    (.predTrue (t := 0) (g := 0) (.inr rfl) (by decide)))
    (.unlock (t := 0) rfl), by decide, by decide, by decide⟩

/-! The second is in its critical section, having changed the generation but not notified: the first is still asleep. -/

example : ∃ f : FBar 2 0, f.Reach ∧ f.pc 0 = .asleep 0 ∧ f.pc 1 = .genned ∧ f.gen = 1 ∧ f.count = 2 := by
  refine ⟨_, .step (.step (.step (.step (.step (.step (.step .init
    (.lock (t := 0) rfl rfl))
    (.countOther (t := 0) rfl (by decide)))
    (.readGen (t := 0) rfl))
    (.predFalse (t := 0) (g := 0) (.inl rfl) (by decide)))
    (.lock (t := 1) rfl rfl))
    (.countLast (t := 1) rfl (by decide)))
    (.gen (t := 1) rfl), rfl, rfl, by decide, by decide⟩

/-! Interrupted while one thread sleeps. -/

example : ∃ f : FBar 2 1, f.Reach ∧ f.intr = true ∧ f.ret 0 = 1 ∧ f.arr 1 = 0 := by
  refine ⟨_, .step (.step (.step (.step (.step (.step (.step (.step (.step (.step (.step .init
    (.lock (t := 0) rfl rfl))
    (.countOther (t := 0) rfl (by decide)))
    (.readGen (t := 0) rfl))
    (.predFalse (t := 0) (g := 0) (.inl rfl) (by decide)))
    (.intLock (i := 0) rfl rfl))
    (.intSet (i := 0) rfl))
    (.intNotify (i := 0) rfl))
    (.intUnlock (i := 0) rfl))
    (.relock (t := 0) (g := 0) rfl rfl))
    (.predTrue (t := 0) (g := 0) (.inr rfl) (by decide)))
    (.unlock (t := 0) rfl), by decide, by decide, by decide⟩

end Lib842.Props
