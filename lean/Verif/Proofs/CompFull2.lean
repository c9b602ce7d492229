import Verif.Proofs.CompFull
import Verif.Proofs.CompFine3
import Verif.Proofs.BarrierExec
/-!
# Executions of the compression stream on the barrier, one access at a time, for the instances
-/

namespace Lib842
open Spec

variable {N : Nat} {k : Option Nat}

/-- The step of thread `t` (a block fails if `bad`) -/
def XS.next (k : Option Nat) (bad : Bool) (t : Fin N) (x : XS N) : Option (XS N) :=
  match (x.st.thr t).pc with
  | .epoch (r + 1) =>
    if x.bar.owner = none then some { st := x.st.setPc t (.epochIn r), bar := { x.bar with
        owner := some (.inl t), pc := Function.update x.bar.pc t .locked, arr := Function.update x.bar.arr t (x.bar.arr t + 1) } }
    else none
  | .epochIn r =>
    if x.bar.pc t = .out then some { x with st := x.st.setPc t (.epoch r) }
    else (x.bar.next t).map fun b => { x with bar := b }
  | .finArr =>
    if x.bar.owner = none then some { st := x.st.setPc t .finIn, bar := { x.bar with
        owner := some (.inl t), pc := Function.update x.bar.pc t .locked, arr := Function.update x.bar.arr t (x.bar.arr t + 1) } }
    else none
  | .finIn =>
    if x.bar.pc t = .out then some { x with st := x.st.setPc t (if t.val = 0 then .rLock else .top) }
    else (x.bar.next t).map fun b => { x with bar := b }
  | _ => if (x.st.thr t).pc.atBar = false then (x.st.next k bad t).map fun s => { x with st := s } else none

theorem xnext_step {bad : Bool} {t : Fin N} {x x' : XS N} (h : x.next k bad t = some x') : XStep k x x' := by
  unfold XS.next at h
  split at h
  · split at h <;> cases h
    rename_i hp ho; exact .work (.epochArrive hp ho)
  · split at h
    · cases h; rename_i hp ho; exact .work (.epochOut hp ho)
    · obtain ⟨b, hb, rfl⟩ := Option.map_eq_some_iff.1 h
      exact .bar (FBar.next_quiet hb)
  · split at h <;> cases h
    rename_i hp ho; exact .work (.finArrive hp ho)
  · split at h
    · cases h; rename_i hp ho; exact .work (.finOut hp ho)
    · obtain ⟨b, hb, rfl⟩ := Option.map_eq_some_iff.1 h
      exact .bar (FBar.next_quiet hb)
  · split at h
    · rename_i hb
      obtain ⟨s, hs, rfl⟩ := Option.map_eq_some_iff.1 h
      exact .work (.own hb (next_work hs))
    · cases h

/-- The next step of the user's call -/
def XS.nextUser (x : XS N) : Option (XS N) :=
  if x.st.usr = .dsIntr then
    if x.bar.owner = none then
      some { st := { x.st with usr := .dsUnlock }, bar := { x.bar with owner := some (.inr 0), ipc := Function.update x.bar.ipc 0 .locked } }
    else none
  else if x.st.usr = .dsUnlock then
    if x.bar.ipc 0 = .out then some { x with st := { x.st with owner := none, usr := .dsJoin } }
    else (x.bar.inext 0).map fun b => { x with bar := b }
  else x.st.nextUser.map fun s => { x with st := s }

theorem xnextUser_step {x x' : XS N} (h : x.nextUser = some x') : XStep k x x' := by
  unfold XS.nextUser at h
  split at h
  · split at h <;> cases h
    rename_i hp ho; exact .user (.intr hp ho)
  · split at h
    · split at h
      · cases h; rename_i hp ho; exact .user (.unlock hp ho)
      · obtain ⟨b, hb, rfl⟩ := Option.map_eq_some_iff.1 h
        exact .bar (FBar.inext_quiet hb)
    · rename_i h1 h2
      obtain ⟨s, hs, rfl⟩ := Option.map_eq_some_iff.1 h
      exact .user (.own ⟨h1, h2⟩ (nextUser_step hs))

def XS.act (k : Option Nat) (x : XS N) : FAct N → Option (XS N)
  | .go t => x.next k false t
  | .bad t => x.next k true t
  | .usr => x.nextUser
  | a => (x.st.act k a).map fun s => { x with st := s }

/-- Actions that are not possible are skipped. -/
def XS.acts (k : Option Nat) : List (FAct N) → XS N → XS N
  | [], x => x
  | a :: as, x => XS.acts k as ((x.act k a).getD x)

theorem xacts_reach : ∀ (as : List (FAct N)) {x : XS N}, XReach k x → XReach k (x.acts k as) := by
  intro as
  induction as with
  | nil => intro s h; exact h
  | cons a as ih =>
    intro x h
    refine ih ?_
    cases ha : x.act k a with
    | none => exact h
    | some x1 =>
      show XReach k x1
      cases a with
      | go t => exact .step h (xnext_step ha)
      | bad t => exact .step h (xnext_step ha)
      | usr => exact .step h (xnextUser_step ha)
      | start n =>
        simp only [XS.act, FS.act] at ha
        obtain ⟨s, hs, rfl⟩ := Option.map_eq_some_iff.1 ha
        split at hs <;> cases hs
        rename_i hc; exact .call h (.start hc.1 hc.2.1 hc.2.2)
      | fin c =>
        simp only [XS.act, FS.act] at ha
        obtain ⟨s, hs, rfl⟩ := Option.map_eq_some_iff.1 ha
        split at hs <;> cases hs
        rename_i hc; exact .call h (.finalize hc.1 hc.2)
      | kill =>
        simp only [XS.act, FS.act] at ha
        obtain ⟨s, hs, rfl⟩ := Option.map_eq_some_iff.1 ha
        split at hs <;> cases hs
        rename_i hc; exact .call h (.destroy hc)

end Lib842
