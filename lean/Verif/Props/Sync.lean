import Verif.Proofs.Sync
/-!
# Properties of the barrier and the latch

C40, C41, C42.
-/

namespace Lib842.Props
open Lib842

/-- C40: as long as the barrier is not interrupted, a thread that has returned `r` times has
returned only after every thread had called `r` times.  Any number of reuses, so also across the
wrap of the generation counter. -/
theorem C40_barrier_safe {N : Nat} {s : BarSys N} (h : BarSys.Reach s) (hi : s.bar.intr = false)
    (t u : Fin N) : s.ret t ≤ s.arr u := by
  rcases barSys_reach h with h1 | ⟨G, h1⟩
  · rw [h1.1] at hi; cases hi
  · have ht := h1.bar.ph t
    have hu := h1.bar.ph u
    rcases h1.ret t with ⟨ho, hr⟩ | ⟨_, hr⟩
    · have := h1.bar.out_arr ho
      omega
    · omega

/-- C40: a thread sleeps in its `arr t`-th call only while some thread has not made that many
calls; once all have, it is out or awake with the predicate true. -/
theorem C40_barrier_releases {N : Nat} {s : BarSys N} (h : BarSys.Reach s) (t : Fin N)
    (hall : ∀ u, s.arr t ≤ s.arr u) :
    s.bar.wt t = .out ∨ ∃ g, s.bar.wt t = .awake g ∧ s.bar.pred g = true := by
  rcases barSys_reach h with h1 | ⟨G, h1⟩
  · cases hw : s.bar.wt t with
    | out => exact .inl rfl
    | asleep g => exact absurd hw (h1.2 t g)
    | awake g => exact .inr ⟨g, rfl, by simp [Bar.pred, h1.1]⟩
  · obtain ⟨u, hu⟩ := h1.bar.exists_old (by have := t.isLt; omega)
    have ht := h1.bar.ph t
    have := hall u
    have hta : s.arr t = G := by omega
    rcases h1.bar.old t hta with h2 | ⟨g, hg, h2⟩
    · exact .inl h2
    · right
      refine ⟨g, h2, ?_⟩
      have : s.bar.gen ≠ g := by rw [← hg]; exact succ_ne32 g
      simp [Bar.pred, this]

/-- C41: after `interrupt` nobody sleeps, an awake thread returns at its next step, and a thread
that arrives returns at once. -/
theorem C41_interrupt {N : Nat} {s : BarSys N} (h : BarSys.Reach s) (hi : s.bar.intr = true)
    (t : Fin N) :
    (s.bar.wt t = .out ∨ ∃ g, s.bar.wt t = .awake g ∧ (s.bar.recheck t g).wt t = .out) ∧
    (s.bar.wt t = .out → (s.bar.arrive t).wt t = .out) := by
  rcases barSys_reach h with h1 | ⟨G, h1⟩
  · refine ⟨?_, h1.arrive.2⟩
    cases hw : s.bar.wt t with
    | out => exact .inl rfl
    | asleep g => exact absurd hw (h1.2 t g)
    | awake g =>
      right
      refine ⟨g, rfl, ?_⟩
      rw [h1.recheck.2]
      simp
  · have := h1.bar.intr
    rw [hi] at this; cases this

/-- C41: `interrupt` is for good. -/
theorem C41_stays {N : Nat} {s s' : BarSys N} (h : BarSys.Step s s') (hi : s.bar.intr = true) :
    s'.bar.intr = true := by
  cases h with
  | arrive ht =>
    rw [(settle_bar _ _).1]
    show (Bar.arrive _ _).intr = true
    unfold Bar.arrive
    split
    · exact hi
    · split <;> exact hi
  | recheck ht =>
    rw [(settle_bar _ _).1]
    show (Bar.recheck _ _ _).intr = true
    unfold Bar.recheck
    split <;> exact hi
  | spurious ht => exact hi
  | interrupt => rfl

/-- The invariant of the latch. -/
structure LatchInv (n : Nat) (l : Latch) : Prop where
  value : l.value = n - l.calls
  le : l.calls ≤ n
  ok : l.broken = false
  ret : ∀ w, l.wt w = .returned → l.calls = n
  asleep : ∀ w, l.wt w = .asleep → l.calls < n

theorem latch_inv {n : Nat} {l : Latch} (h : Latch.Reach n l) : LatchInv n l := by
  induction h with
  | init => exact ⟨by simp [Latch.init], by simp [Latch.init], rfl, by simp [Latch.init], by simp [Latch.init]⟩
  | @step l l' _ hs ih =>
    have hv := ih.value
    have upd : ∀ (w : Nat) (x : LWait), (x = .returned → l.calls = n) → (x = .asleep → l.calls < n) →
        LatchInv n { l with wt := Function.update l.wt w x } := by
      intro w x hr ha
      refine ⟨ih.value, ih.le, ih.ok, ?_, ?_⟩
      all_goals
        intro v hv
        by_cases hvw : v = w
        · subst hvw
          simp only [Function.update_self] at hv
          first | exact hr hv | exact ha hv
        · simp only [Function.update_of_ne hvw] at hv
          first | exact ih.ret v hv | exact ih.asleep v hv
    cases hs with
    | countDown hlt =>
      refine ⟨?_, ?_, ?_, ?_, ?_⟩
      · simp only [Latch.countDown]; push_cast; omega
      · simp only [Latch.countDown]; omega
      · have : 0 < l.value := by omega
        simp [Latch.countDown, ih.ok, this]
      · intro w hw
        simp only [Latch.countDown] at hw
        exfalso
        cases hlw : l.wt w <;> rw [hlw] at hw <;> simp [LWait.wake] at hw
        have := ih.ret w hlw
        omega
      · intro w hw
        simp only [Latch.countDown] at hw
        cases hlw : l.wt w <;> rw [hlw] at hw <;> simp [LWait.wake] at hw
    | wait hw => exact upd _ _ (by simp) (by simp)
    | check hw =>
      unfold Latch.check
      split
      · rename_i h0
        have := ih.le
        exact upd _ _ (fun _ => by omega) (by simp)
      · rename_i h0
        have := ih.le
        exact upd _ _ (by simp) (fun _ => by omega)
    | spurious hw => exact upd _ _ (by simp) (by simp)

/-- C42: `wait` has returned only after `n` calls of `count_down`; the assertion in `count_down`
never fails. -/
theorem C42_latch_safe {n : Nat} {l : Latch} (h : Latch.Reach n l) :
    l.broken = false ∧ ∀ w, l.wt w = .returned → l.calls = n :=
  ⟨(latch_inv h).ok, (latch_inv h).ret⟩

/-- C42: after `n` calls of `count_down` nobody sleeps, and a thread that evaluates the predicate
returns. -/
theorem C42_latch_releases {n : Nat} {l : Latch} (h : Latch.Reach n l) (hn : l.calls = n) (w : Nat) :
    l.wt w ≠ .asleep ∧ (l.check w).wt w = .returned := by
  have hi := latch_inv h
  refine ⟨fun hw => ?_, ?_⟩
  · have := hi.asleep w hw; omega
  · have h0 : l.value = 0 := by have := hi.value; omega
    unfold Latch.check
    rw [if_pos h0]
    simp

/-- Two threads meet once, the first one sleeping in between. -/
example : ∃ s : BarSys 2, BarSys.Reach s ∧ s.ret 0 = 1 ∧ s.ret 1 = 1 ∧ s.arr 0 = 1 ∧ s.arr 1 = 1 := by
  have h1 := BarSys.Reach.step .init (.arrive (N := 2) (t := 0) rfl)
  have h2 := BarSys.Reach.step h1 (.arrive (t := 1) rfl)
  have h3 := BarSys.Reach.step h2 (.recheck (t := 0) (g := 0) rfl)
  exact ⟨_, h3, by decide, by decide, by decide, by decide⟩

example : ∃ l, Latch.Reach 2 l ∧ l.calls = 2 ∧ l.wt 7 = .returned := by
  have h1 := Latch.Reach.step (n := 2) .init (.wait (w := 7) rfl)
  have h2 := Latch.Reach.step h1 (.check (w := 7) rfl)
  have h3 := Latch.Reach.step h2 (.countDown (by decide))
  have h4 := Latch.Reach.step h3 (.countDown (by decide))
  have h5 := Latch.Reach.step h4 (.check (w := 7) rfl)
  exact ⟨_, h5, rfl, rfl⟩

end Lib842.Props
