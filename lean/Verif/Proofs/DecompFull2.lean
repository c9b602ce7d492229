import Verif.Proofs.DecompFull
import Verif.Proofs.DecompFine3
import Verif.Proofs.BarrierExec
/-!
# Executions of the decompression stream on the barrier, one access at a time, for the instances
-/

namespace Lib842
open Spec

variable {N : Nat}

/-- The step of thread `t` (a block fails if `bad`) -/
def YS.next (bad : Bool) (t : Fin N) (x : YS N) : Option (YS N) :=
  match (x.st.thr t).pc with
  | .finArr =>
    if x.bar.owner = none then some { st := x.st.setPc t .finIn, bar := { x.bar with
        owner := some (.inl t), pc := Function.update x.bar.pc t .locked, arr := Function.update x.bar.arr t (x.bar.arr t + 1) } }
    else none
  | .finIn =>
    if x.bar.pc t = .out then some { x with st := x.st.setPc t (if t.val = 0 then .rLock else .top) }
    else (x.bar.next t).map fun b => { x with bar := b }
  | _ => if (x.st.thr t).pc.atBar = false then (x.st.next bad t).map fun s => { x with st := s } else none

theorem ynext_step {bad : Bool} {t : Fin N} {x x' : YS N} (h : x.next bad t = some x') : YStep x x' := by
  unfold YS.next at h
  split at h
  · split at h <;> cases h
    rename_i hp ho; exact .work (.finArrive hp ho)
  · split at h
    · cases h; rename_i hp ho; exact .work (.finOut hp ho)
    · obtain ⟨b, hb, rfl⟩ := Option.map_eq_some_iff.1 h
      exact .bar (FBar.next_quiet hb)
  · split at h
    · rename_i hb
      obtain ⟨s, hs, rfl⟩ := Option.map_eq_some_iff.1 h
      exact .work (.own hb (gnext_work hs))
    · cases h

/-- The next step of the user's call -/
def YS.nextUser (x : YS N) : Option (YS N) :=
  if x.st.usr = .dsIntr then
    if x.bar.owner = none then
      some { st := { x.st with usr := .dsUnlock, log := .destroy :: x.st.log }, bar := { x.bar with owner := some (.inr 0), ipc := Function.update x.bar.ipc 0 .locked } }
    else none
  else if x.st.usr = .dsUnlock then
    if x.bar.ipc 0 = .out then some { x with st := { x.st with owner := none, usr := .dsJoin } }
    else (x.bar.inext 0).map fun b => { x with bar := b }
  else x.st.nextUser.map fun s => { x with st := s }

theorem ynextUser_step {x x' : YS N} (h : x.nextUser = some x') : YStep x x' := by
  unfold YS.nextUser at h
  split at h
  · split at h <;> cases h
    rename_i hp ho; exact .user (.intr hp ho)
  · split at h
    · split at h
      · cases h; rename_i hp ho; exact .user (.unlock hp ho)
      · obtain ⟨b, hb, rfl⟩ := Option.map_eq_some_iff.1 h
        exact .bar (FBar.inext_quiet hb)
    · rename_i h1 h2
      obtain ⟨s, hs, rfl⟩ := Option.map_eq_some_iff.1 h
      exact .user (.own ⟨h1, h2⟩ (gnextUser_step hs))

def YS.act (x : YS N) : GAct N → Option (YS N)
  | .go t => x.next false t
  | .bad t => x.next true t
  | .usr => x.nextUser
  | a => (x.st.act a).map fun s => { x with st := s }

/-- Actions that are not possible are skipped. -/
def YS.acts : List (GAct N) → YS N → YS N
  | [], x => x
  | a :: as, x => YS.acts as ((x.act a).getD x)

theorem yacts_reach : ∀ (as : List (GAct N)) {x : YS N}, YReach x → YReach (x.acts as) := by
  intro as
  induction as with
  | nil => intro s h; exact h
  | cons a as ih =>
    intro x h
    refine ih ?_
    cases ha : x.act a with
    | none => exact h
    | some x1 =>
      show YReach x1
      cases a with
      | go t => exact .step h (ynext_step ha)
      | bad t => exact .step h (ynext_step ha)
      | usr => exact .step h (ynextUser_step ha)
      | start n =>
        simp only [YS.act, GS.act] at ha
        obtain ⟨s, hs, rfl⟩ := Option.map_eq_some_iff.1 ha
        split at hs <;> cases hs
        rename_i hc; exact .call h (.start hc.1 hc.2)
      | push b =>
        simp only [YS.act, GS.act] at ha
        obtain ⟨s, hs, rfl⟩ := Option.map_eq_some_iff.1 ha
        split at hs <;> cases hs
        rename_i hc; exact .call h (.push hc.1 hc.2)
      | fin c =>
        simp only [YS.act, GS.act] at ha
        obtain ⟨s, hs, rfl⟩ := Option.map_eq_some_iff.1 ha
        split at hs <;> cases hs
        rename_i hc; exact .call h (.finalize hc.1 hc.2)
      | kill =>
        simp only [YS.act, GS.act] at ha
        obtain ⟨s, hs, rfl⟩ := Option.map_eq_some_iff.1 ha
        split at hs <;> cases hs
        rename_i hc; exact .call h (.destroy hc)

end Lib842
