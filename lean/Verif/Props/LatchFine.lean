import Verif.Proofs.LatchFine
import Verif.Props.Sync
/-!
# C99: when a latch may be destroyed

`sample/compdecomp_streams.cpp` declares its latches as local variables after the stream whose threads call `count_down`: they are destroyed as soon as `wait` has returned, before those threads are joined.
-/

namespace Lib842.Props
open Lib842
variable {n m : Nat}

/-- C99: when `wait` has returned in some thread, each of the `n` calls of `count_down` has made its last access to the latch. -/
theorem C99_destroy {l : FLatch n m} (h : l.Reach) (w : Fin m) (hw : l.wt w = .returned) (c : Fin n) : l.cd c = .done :=
  (FLatch.inv h).gone w (.inr hw) c

/-- C99: when `wait` has returned in all threads that call it, no thread accesses the latch any more. -/
theorem C99_untouched {l : FLatch n m} (h : l.Reach) (hm : 0 < m) (hw : ∀ w, l.wt w = .returned) :
    ∀ l', ¬ FLatch.Step l l' := by
  intro l' hs
  have hd := C99_destroy h ⟨0, hm⟩ (hw _)
  cases hs with
  | @cdLock c h => rw [hd c] at h; cases h
  | @cdCount c h => rw [hd c] at h; cases h
  | @cdNotify c h => rw [hd c] at h; cases h
  | @cdUnlock c h => rw [hd c] at h; cases h
  | @wLock w h => rw [hw w] at h; rcases h with h | h <;> cases h
  | @wTrue w h => rw [hw w] at h; cases h
  | @wFalse w h => rw [hw w] at h; cases h
  | @wUnlock w h => rw [hw w] at h; cases h
  | @spurious w h => rw [hw w] at h; cases h

/-- C99: the threads never come to a halt before all calls have returned; no spurious wakeup is needed for that. -/
theorem C99_no_deadlock {l : FLatch n m} (h : l.Reach)
    (hstuck : ∀ l', FLatch.Step l l' → ∃ w, l.wt w = .asleep ∧ l'.wt w ≠ .asleep ∧ l'.cd = l.cd) :
    (∀ c, l.cd c = .done) ∧ ∀ w, l.wt w = .returned := by
  have hi := FLatch.inv h
  have hnone : l.owner = none := by
    cases ho : l.owner with
    | none => rfl
    | some t =>
      exfalso
      cases t with
      | inl c =>
        have hh := (hi.cdOwn c).2 ho
        cases hc : l.cd c with
        | before => rw [hc] at hh; cases hh
        | done => rw [hc] at hh; cases hh
        | locked =>
          obtain ⟨w, _, _, h3⟩ := hstuck _ (.cdCount hc)
          have := congrFun h3 c
          simp [hc] at this
        | counted =>
          obtain ⟨w, _, _, h3⟩ := hstuck _ (.cdNotify hc)
          have := congrFun h3 c
          simp [hc] at this
        | notified =>
          obtain ⟨w, _, _, h3⟩ := hstuck _ (.cdUnlock hc)
          have := congrFun h3 c
          simp [hc] at this
      | inr w =>
        have hh := (hi.wtOwn w).2 ho
        have key : ∀ p (w' : Fin m), l.wt w' = .asleep → l.wt w ≠ .asleep → Function.update l.wt w p w' ≠ .asleep → False := by
          intro p w' h1 h2 h3
          have hne : w' ≠ w := by rintro rfl; exact h2 h1
          rw [Function.update_of_ne hne] at h3
          exact h3 h1
        cases hw : l.wt w with
        | locked =>
          by_cases hv : l.value = 0
          · obtain ⟨w', h1, h2, _⟩ := hstuck _ (.wTrue hw hv)
            exact key _ w' h1 (by simp [hw]) h2
          · obtain ⟨w', h1, h2, _⟩ := hstuck _ (.wFalse hw hv)
            exact key _ w' h1 (by simp [hw]) h2
        | leaving =>
          obtain ⟨w', h1, h2, _⟩ := hstuck _ (.wUnlock hw)
          exact key _ w' h1 (by simp [hw]) h2
        | before => rw [hw] at hh; cases hh
        | asleep => rw [hw] at hh; cases hh
        | woken => rw [hw] at hh; cases hh
        | returned => rw [hw] at hh; cases hh
  have hcd : ∀ c, l.cd c = .done := by
    intro c
    have hh : (l.cd c).holds = false := by
      by_contra hc
      have := (hi.cdOwn c).1 (by simpa using hc)
      rw [hnone] at this
      cases this
    cases hc : l.cd c with
    | done => rfl
    | before =>
      obtain ⟨w, _, _, h3⟩ := hstuck _ (.cdLock hc hnone)
      have := congrFun h3 c
      simp [hc] at this
    | locked => rw [hc] at hh; cases hh
    | counted => rw [hc] at hh; cases hh
    | notified => rw [hc] at hh; cases hh
  refine ⟨hcd, fun w => ?_⟩
  have hh : (l.wt w).holds = false := by
    by_contra hc
    have := (hi.wtOwn w).1 (by simpa using hc)
    rw [hnone] at this
    cases this
  have key : (l.wt w = .before ∨ l.wt w = .woken) → False := by
    intro hb
    obtain ⟨w', h1, h2, _⟩ := hstuck _ (.wLock hb hnone)
    have hne : w' ≠ w := by rintro rfl; rw [h1] at hb; rcases hb with h | h <;> cases h
    simp only [Function.update_of_ne hne] at h2
    exact h2 h1
  cases hw : l.wt w with
  | returned => rfl
  | before => exact (key (.inl hw)).elim
  | woken => exact (key (.inr hw)).elim
  | asleep =>
    obtain ⟨c, hc⟩ := FLatch.inv2 h w hw
    rw [hcd c] at hc
    simp at hc
  | locked => rw [hw] at hh; cases hh
  | leaving => rw [hw] at hh; cases hh

/-- C99: taking the critical sections as single steps, as C42 does, shows everything: each state is also one of the coarse model, with the same
counter whenever nobody is inside a critical section, and the same threads asleep and back from `wait`. -/
theorem C99_atomic {l : FLatch n m} (h : l.Reach) :
    ∃ a : Latch, Latch.Reach n a ∧ (l.owner = none → a.value = l.value) ∧ a.broken = l.broken ∧
      ∀ w : Fin m, (a.wt w = .asleep ↔ l.wt w = .asleep) ∧ (l.wt w = .returned → a.wt w = .returned) ∧
        (a.wt w = .returned → l.wt w = .leaving ∨ l.wt w = .returned) := by
  have hi := FLatch.inv h
  refine ⟨l.coarse, FLatch.coarse_reach h, ?_, hi.ok.symm, ?_⟩
  · intro ho
    rw [hi.value]
    have : (Finset.univ.filter fun c => (l.cd c).told = true) = (Finset.univ.filter fun c => (l.cd c).past = true) := by
      refine Finset.filter_congr fun c _ => ?_
      have hh : (l.cd c).holds = false := by
        by_contra hc
        have := (hi.cdOwn c).1 (by simpa using hc)
        rw [ho] at this
        cases this
      revert hh
      cases l.cd c <;> simp [CdPc.holds, CdPc.told, CdPc.past]
    unfold FLatch.coarse FLatch.num
    simp only [this]
  · intro w
    have : l.coarse.wt w = (l.wt w).coarse := by
      unfold FLatch.coarse
      simp
    rw [this]
    cases l.wt w <;> simp [LwPc.coarse]

/-! The sample: one call, one waiting thread that comes first, falls asleep, and returns in the end. -/

example : ∃ l : FLatch 1 1, l.Reach ∧ l.wt 0 = .returned ∧ l.value = 0 := by
  refine ⟨_, .step (.step (.step (.step (.step (.step (.step (.step (.step .init
    (.wLock (w := 0) (.inl rfl) rfl))
    (.wFalse (w := 0) rfl (by decide)))
    (.cdLock (c := 0) rfl rfl))
    (.cdCount (c := 0) rfl))
    (.cdNotify (c := 0) rfl))
    (.cdUnlock (c := 0) rfl))
    (.wLock (w := 0) (.inr rfl) rfl))
    (.wTrue (w := 0) rfl (by decide)))
    (.wUnlock (w := 0) rfl), rfl, by decide⟩

/-! Not all is done when the counter is 0: the thread still has the mutex, and `wait` cannot return. -/

example : ∃ l : FLatch 1 1, l.Reach ∧ l.value = 0 ∧ l.cd 0 = .counted ∧ l.wt 0 = .asleep := by
  refine ⟨_, .step (.step (.step (.step .init
    (.wLock (w := 0) (.inl rfl) rfl))
    (.wFalse (w := 0) rfl (by decide)))
    (.cdLock (c := 0) rfl rfl))
    (.cdCount (c := 0) rfl), by decide, rfl, rfl⟩

end Lib842.Props
