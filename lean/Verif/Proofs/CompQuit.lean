import Verif.Proofs.CompStream6
/-!
# Epochs while the compression stream is being destroyed
-/

namespace Lib842
open Spec

variable {N : Nat}

/-- What is known of the locals of a thread while the stream is being destroyed -/
def QThr (size : Nat) (th : CThr) : Prop :=
  match th.pc with
  | .fetch => th.valid ≤ size ∧ th.lastOff ≤ size
  | .epoch _ | .epochIn _ => th.valid ≤ size
  | .handle | .failed | .deliver _ | .inCall _ => th.valid ≤ size ∧ th.lastOff ≤ size
  | _ => True

theorem qthr_set {s : CS N} {t : Fin N} {th : CThr} (h : ∀ u, QThr s.size (s.thr u)) (ht : QThr s.size th) (s' : CS N)
    (hs : s'.size = s.size) (he : s'.thr = Function.update s.thr t th) : ∀ u, QThr s'.size (s'.thr u) := by
  intro u
  rw [hs, he]
  by_cases hu : u = t
  · subst hu; rw [Function.update_self]; exact ht
  · rw [Function.update_of_ne hu]; exact h u

theorem qthr_work {k : Option Nat} {s s' : CS N} {t : Fin N} (hq : s.quit = true) (h : ∀ u, QThr s.size (s.thr u)) (hs : CWork k t s s') :
    ∀ u, QThr s'.size (s'.thr u) := by
  have ht := h t
  cases hs with
  | topQuit => exact qthr_set h (by simp [QThr]) _ rfl rfl
  | topGo => exact qthr_set h (by simp [QThr]) _ rfl rfl
  | trigGo => exact qthr_set h (by simp [QThr]) _ rfl rfl
  | trigWait => exact qthr_set h (by simp [QThr]) _ rfl rfl
  | enter => exact qthr_set h (by simp [QThr]) _ rfl rfl
  | fetch hp =>
    simp only [QThr, hp] at ht
    exact qthr_set h (by simp only [QThr]; exact ht.1) _ rfl rfl
  | epochArrive hp =>
    simp only [QThr, hp] at ht
    exact qthr_set h (by simp only [QThr]; exact ht) _ rfl rfl
  | epochOut hp =>
    simp only [QThr, hp] at ht
    exact qthr_set h (by simp only [QThr]; exact ht) _ rfl rfl
  | recheck => exact h
  | epochEnd hp =>
    simp only [QThr, hp] at ht
    refine qthr_set h ?_ _ rfl rfl
    by_cases hc : (s.thr t).valid ≤ (s.thr t).off
    · simp [QThr, hc]
    · simp only [QThr, hc, if_false]
      omega
  | handleOk hp =>
    simp only [QThr, hp] at ht
    exact qthr_set h (by simp only [QThr]; exact ht) _ rfl rfl
  | handleFail hp =>
    simp only [QThr, hp] at ht
    exact qthr_set h (by simp only [QThr]; exact ht) _ rfl rfl
  | failed hp =>
    simp only [QThr, hp] at ht
    exact qthr_set h (by simp only [QThr]; exact ht) _ rfl rfl
  | deliver hp =>
    simp only [QThr, hp] at ht
    exact qthr_set h (by simp only [QThr]; exact ht) _ rfl rfl
  | callDone hp =>
    simp only [QThr, hp] at ht
    exact qthr_set h (by simp only [QThr]; exact ht) _ rfl rfl
  | finGo => exact qthr_set h (by simp [QThr]) _ rfl rfl
  | finWait => exact qthr_set h (by simp [QThr]) _ rfl rfl
  | finArrive => exact qthr_set h (by simp [QThr]) _ rfl rfl
  | finOut => refine qthr_set h ?_ _ rfl rfl; split <;> simp [QThr]
  | resetQuit => exact qthr_set h (by simp [QThr]) _ rfl rfl
  | reset _ hq' => rw [hq] at hq'; cases hq'
  | callback => exact qthr_set h (by simp [QThr]) _ rfl rfl
  | callbackDone => exact qthr_set h (by simp [QThr]) _ rfl rfl

theorem qthr_wake {n : Nat} {th : CThr} (h : QThr n th) : QThr n th.wake := by
  unfold CThr.wake
  split <;> first | exact h | simp [QThr]

theorem qthr_of_inv {k : Option Nat} {s : CS N} {arr : Fin N → Nat} {G base next : Nat} {run : Bool} (h : CInv k s arr G base next run)
    (hq : s.quit = false) : ∀ u, QThr s.size (s.thr u) := by
  intro u
  have hN := h.n hq
  have hT := hN.thr u
  unfold QThr
  unfold TInv at hT
  have hv := vld_le (opSize s.log)
  have hs : run = true → s.size = opSize s.log := fun hr => (hN.runT hr).1
  cases hp : (s.thr u).pc <;> simp only [hp, viewOf] at hT ⊢
  all_goals
    obtain ⟨h1, h2, h3, h4⟩ := hT
    have := hs h2
    omega

theorem qthr_reach {k : Option Nat} (hk : EpochSetting k) {s : CS N} (h : CReach k s) : ∀ u, QThr s.size (s.thr u) := by
  cases hq : s.quit with
  | false =>
    obtain ⟨arr, G, base, next, run, hi⟩ := creach_inv hk h
    exact qthr_of_inv hi hq
  | true =>
    induction h with
    | init => cases hq
    | @work s s' t hr hs ih =>
      have h1 : s'.quit = s.quit := (work_log hs).1
      rw [h1] at hq
      exact qthr_work hq (ih hq) hs
    | @user s s' hr hs ih =>
      cases hs with
      | start hq' => simp only at hq; rw [hq'] at hq; cases hq
      | finalize hq' => simp only at hq; rw [hq'] at hq; cases hq
      | destroy hq' =>
        obtain ⟨arr, G, base, next, run, hi⟩ := creach_inv hk hr
        intro u
        exact qthr_wake (qthr_of_inv hi hq' u)
    | spurious hr hs ih =>
      cases hs with
      | cv => exact qthr_set (ih hq) (qthr_wake (ih hq _)) _ rfl rfl
      | bar => exact ih hq

end Lib842
