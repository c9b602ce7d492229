import Verif.Proofs.DecompFine2
/-!
# Executions of the fine-grained decompression stream, for the instances
-/

namespace Lib842
open Spec

variable {N : Nat}

/-- The step of thread `t` (a block fails if `bad`) -/
def GS.next (bad : Bool) (t : Fin N) (s : GS N) : Option (GS N) :=
  match s.bar.wt t with
  | .awake g => some { s with bar := s.bar.recheck t g }
  | .asleep _ => none
  | .out =>
    match (s.thr t).pc with
    | .top => some (s.setPc t (if s.quit then .done else .trigLock))
    | .trigLock | .trigWoken => if s.owner = none then some ({ s with owner := some (some t) }.setPc t .trigCmp) else none
    | .trigCmp => some (s.setPc t (if s.trig = (s.thr t).lastTrig then .trigQuit else .trigRead))
    | .trigQuit => if s.quit then some (s.setPc t .trigRead) else some ({ s with owner := none }.setPc t .trigSleep)
    | .trigSleep => none
    | .trigRead => some (s.setThr t { pc := .trigUnlock, lastTrig := s.trig })
    | .trigUnlock => some ({ s with owner := none }.setPc t .popLock)
    | .popLock | .popWoken => if s.owner = none then some ({ s with owner := some (some t) }.setPc t .popEmpty) else none
    | .popEmpty => some (s.setPc t (if s.queue = [] then .popFin else .brkFin))
    | .popFin => some (s.setPc t (if s.finalizing then .brkFin else .popQuit))
    | .popQuit => if s.quit then some (s.setPc t .brkFin) else some ({ s with owner := none }.setPc t .popSleep)
    | .popSleep => none
    | .brkFin => some (s.setPc t (if s.finalizing then .brkEmpty else .brkQuit))
    | .brkEmpty => some (s.setPc t (if s.queue = [] then .brkUnlock else .brkQuit))
    | .brkQuit => some (s.setPc t (if s.quit then .brkUnlock else .popFront))
    | .popFront =>
      match s.queue with
      | [] => none
      | b :: _ => some (s.setPc t (.popPop b))
    | .popPop b => some ({ s with queue := s.queue.tail, log := .begin b :: s.log }.setPc t (.popUnlock b))
    | .popUnlock b => some ({ s with owner := none }.setPc t (.handle b))
    | .brkUnlock => some ({ s with owner := none }.setPc t .finArr)
    | .handle b =>
      if bad then some ({ s with log := .ended b false :: s.log }.setPc t .failLock)
      else some ({ s with log := .ended b true :: s.log }.setPc t .popLock)
    | .failLock => if s.owner = none then some ({ s with owner := some (some t) }.setPc t .failRead) else none
    | .failRead => some (s.setPc t .failErr)
    | .failErr => some ({ s with error := true }.setPc t .failQueue)
    | .failQueue => some ({ s with queue := [] }.setPc t .failUnlock)
    | .failUnlock => some ({ s with owner := none }.setPc t .popLock)
    | .finArr => some ({ s with bar := s.bar.arrive t }.setPc t .finIn)
    | .finIn => some (s.setPc t (if t.val = 0 then .rLock else .top))
    | .rLock => if s.owner = none then some ({ s with owner := some (some t) }.setPc t .rQuit) else none
    | .rQuit => some (s.setPc t (if s.quit then .rUnlockQuit else .rErr))
    | .rErr => some (s.setPc t (.rErrSet s.error))
    | .rErrSet e => some ({ s with error := false }.setPc t (.rFin e))
    | .rFin e => some ({ s with finalizing := false }.setPc t (.rCb e))
    | .rCb e => some ({ s with cb := none }.setPc t (.rCbClear e s.cb))
    | .rCbClear e g => some ({ s with cb := none }.setPc t (.rUnlock e g))
    | .rUnlock e g => some ({ s with owner := none }.setPc t (.callback (!e) g))
    | .rUnlockQuit => some ({ s with owner := none }.setPc t .top)
    | .callback ok g => some ({ s with log := .finalized ok :: s.log, cbs := .called g :: s.cbs }.setPc t .inCallback)
    | .inCallback => some (s.setPc t .top)
    | .done => none

theorem gnext_work {bad : Bool} {t : Fin N} {s s' : GS N} (h : s.next bad t = some s') : GWork t s s' := by
  unfold GS.next at h
  split at h
  · rename_i g hw; cases h; exact .recheck hw
  · cases h
  · rename_i hw
    split at h <;> rename_i hp
    · cases h; split
      · exact .topQuit hp ‹_›
      · exact .topGo hp (by simp_all)
    · split at h <;> cases h; exact .trigLock (.inl hp) ‹_›
    · split at h <;> cases h; exact .trigLock (.inr hp) ‹_›
    · cases h; split
      · exact .trigEq hp ‹_›
      · exact .trigNe hp ‹_›
    · split at h <;> cases h
      · exact .trigQuit hp ‹_›
      · exact .trigWait hp (by simp_all)
    · cases h
    · cases h; exact .trigRead hp
    · cases h; exact .trigUnlock hp
    · split at h <;> cases h; exact .popLock (.inl hp) ‹_›
    · split at h <;> cases h; exact .popLock (.inr hp) ‹_›
    · cases h; exact .popEmpty hp
    · cases h; exact .popFin hp
    · split at h <;> cases h
      · exact .popQuit hp ‹_›
      · exact .popWait hp (by simp_all)
    · cases h
    · cases h; exact .brkFin hp
    · cases h; exact .brkEmpty hp
    · cases h; exact .brkQuit hp
    · split at h <;> cases h; exact .popFront hp ‹_›
    · cases h; exact .popPop hp
    · cases h; exact .popUnlock hp
    · cases h; exact .brkUnlock hp
    · split at h <;> cases h
      · exact .handleFail hp
      · exact .handleOk hp
    · split at h <;> cases h; exact .failLock hp ‹_›
    · cases h; exact .failRead hp
    · cases h; exact .failErr hp
    · cases h; exact .failQueue hp
    · cases h; exact .failUnlock hp
    · cases h; exact .finArrive hp
    · cases h; exact .finOut hp hw
    · split at h <;> cases h; exact .rLock hp ‹_›
    · cases h; exact .rQuit hp
    · cases h; exact .rErr hp
    · cases h; exact .rErrSet hp
    · cases h; exact .rFin hp
    · cases h; exact .rCb hp
    · cases h; exact .rCbClear hp
    · cases h; exact .rUnlock hp
    · cases h; exact .rUnlockQuit hp
    · cases h; exact .callback hp
    · cases h; exact .callbackDone hp
    · cases h

/-- The next step of the user's call; `notify_one` wakes the first thread that sleeps. -/
def GS.nextUser (s : GS N) : Option (GS N) :=
  match s.usr with
  | .idle | .dsJoin | .aborted => none
  | .stPtr p => some { s with ptr := p, usr := .stLock p }
  | .stLock p => if s.owner = none then some { s with owner := some none, usr := .stTrig p } else none
  | .stTrig p => some { s with trig := s.trig + 1, usr := .stNotify p }
  | .stNotify p => some { s with thr := fun t => (s.thr t).wakeT, usr := .unlock, log := .start :: s.log, opPtr := p }
  | .puLock b => if s.owner = none then some { s with owner := some none, usr := .puAssert b } else none
  | .puAssert b => some { s with usr := if s.finalizing then .aborted else .puErr b }
  | .puErr b => if s.error then some { s with usr := .unlock, log := .refused b :: s.log } else some { s with usr := .puPush b }
  | .puPush b => some { s with queue := s.queue ++ [b], usr := .puNotify b }
  | .puNotify b =>
    match h : (List.finRange N).find? fun t => (s.thr t).pc = .popSleep with
    | none => some { s with usr := .unlock, log := .push b :: s.log }
    | some t => some ({ s with usr := .unlock, log := .push b :: s.log }.setPc t .popWoken)
  | .fnLock c g => if s.owner = none then some { s with owner := some none, usr := .fnFlag c g } else none
  | .fnFlag c g => some { s with finalizing := true, usr := .fnCb c g }
  | .fnCb c g => some { s with cb := some g, usr := .fnQueue c, cbs := .given g :: s.cbs }
  | .fnQueue c => some { s with queue := if c then [] else s.queue, usr := .fnNotify c }
  | .fnNotify c => some { s with thr := fun t => (s.thr t).wakeQ, usr := .unlock, log := .finalize c :: s.log }
  | .unlock => some { s with owner := none, usr := .idle }
  | .dsLock => if s.owner = none then some { s with owner := some none, usr := .dsQuit } else none
  | .dsQuit => some { s with quit := true, usr := .dsNotT }
  | .dsNotT => some { s with thr := fun t => (s.thr t).wakeT, usr := .dsNotQ }
  | .dsNotQ => some { s with thr := fun t => (s.thr t).wakeQ, usr := .dsIntr }
  | .dsIntr => some { s with bar := s.bar.interrupt, usr := .dsUnlock, log := .destroy :: s.log }
  | .dsUnlock => some { s with owner := none, usr := .dsJoin }

theorem gnextUser_step {s s' : GS N} (h : s.nextUser = some s') : GUser s s' := by
  unfold GS.nextUser at h
  split at h <;> rename_i hp
  · cases h
  · cases h
  · cases h
  · cases h; exact .stPtr hp
  · split at h <;> cases h; exact .stLock hp ‹_›
  · cases h; exact .stTrig hp
  · cases h; exact .stNotify hp
  · split at h <;> cases h; exact .puLock hp ‹_›
  · cases h; exact .puAssert hp
  · split at h <;> cases h
    · exact .puRefuse hp ‹_›
    · exact .puAccept hp (by simp_all)
  · cases h; exact .puPush hp
  · split at h <;> rename_i hf <;> cases h
    · refine .puNone hp fun t ht => ?_
      have := List.find?_eq_none.1 hf t (List.mem_finRange t)
      simp [ht] at this
    · exact .puWake hp (by simpa using List.find?_some hf)
  · split at h <;> cases h; exact .fnLock hp ‹_›
  · cases h; exact .fnFlag hp
  · cases h; exact .fnCb hp
  · cases h; exact .fnQueue hp
  · cases h; exact .fnNotify hp
  · cases h; exact .unlock hp
  · split at h <;> cases h; exact .dsLock hp ‹_›
  · cases h; exact .dsQuit hp
  · cases h; exact .dsNotT hp
  · cases h; exact .dsNotQ hp
  · cases h; exact .dsIntr hp
  · cases h; exact .dsUnlock hp

/-- What an execution does next. -/
inductive GAct (N : Nat)
  | go (t : Fin N) | bad (t : Fin N) | usr | start (p : Nat) | push (b : Nat) | fin (c : Bool) (g : Nat) | kill
  deriving DecidableEq

def GS.act (s : GS N) : GAct N → Option (GS N)
  | .go t => s.next false t
  | .bad t => s.next true t
  | .usr => s.nextUser
  | .start p => if s.usr = .idle ∧ dmayStart s.log then some { s with usr := .stPtr p } else none
  | .push b => if s.usr = .idle ∧ dmayPush s.log then some { s with usr := .puLock b } else none
  | .fin c g => if s.usr = .idle ∧ dmayPush s.log then some { s with usr := .fnLock c g } else none
  | .kill => if s.usr = .idle then some { s with usr := .dsLock } else none

/-- Actions that are not possible are skipped. -/
def GS.acts : List (GAct N) → GS N → GS N
  | [], s => s
  | a :: as, s => GS.acts as ((s.act a).getD s)

theorem gacts_reach : ∀ (as : List (GAct N)) {s : GS N}, GReach s → GReach (s.acts as) := by
  intro as
  induction as with
  | nil => intro s h; exact h
  | cons a as ih =>
    intro s h
    refine ih ?_
    cases ha : s.act a with
    | none => exact h
    | some s1 =>
      show GReach s1
      cases a with
      | go t => exact .step h (.inl ⟨t, gnext_work ha⟩)
      | bad t => exact .step h (.inl ⟨t, gnext_work ha⟩)
      | usr => exact .step h (.inr (gnextUser_step ha))
      | start n =>
        simp only [GS.act] at ha
        split at ha <;> cases ha
        rename_i hc; exact .call h (.start hc.1 hc.2)
      | push b =>
        simp only [GS.act] at ha
        split at ha <;> cases ha
        rename_i hc; exact .call h (.push hc.1 hc.2)
      | fin c =>
        simp only [GS.act] at ha
        split at ha <;> cases ha
        rename_i hc; exact .call h (.finalize hc.1 hc.2)
      | kill =>
        simp only [GS.act] at ha
        split at ha <;> cases ha
        rename_i hc; exact .call h (.destroy hc)

end Lib842
