import Verif.Proofs.CompFine2
import Verif.Proofs.CompStream6
/-!
# Executions of the fine-grained compression stream, for the instances
-/

namespace Lib842
open Spec

variable {N : Nat} {k : Option Nat}

/-- The step of thread `t` (a block fails if `bad`) -/
def FS.next (k : Option Nat) (bad : Bool) (t : Fin N) (s : FS N) : Option (FS N) :=
  match s.bar.wt t with
  | .awake g => some { s with bar := s.bar.recheck t g }
  | .asleep _ => none
  | .out =>
    match (s.thr t).pc with
    | .top => some (s.setPc t (if s.quit then .done else .trigLock))
    | .trigLock | .trigWoken => if s.owner = none then some ({ s with owner := some (some t) }.setPc t .trigCmp) else none
    | .trigCmp => some (s.setPc t (if s.trig = (s.thr t).lastTrig then .trigQuit else .trigRead))
    | .trigQuit => if s.quit then some (s.setPc t .trigRead) else some ({ s with owner := none }.setPc t .trigSleep)
    | .trigSleep => none
    | .trigRead => some (s.setThr t { s.thr t with pc := .trigUnlock, lastTrig := s.trig })
    | .trigUnlock => some ({ s with owner := none }.setPc t .enter)
    | .enter => some (s.setThr t { s.thr t with pc := .fetch, lastOff := 0, valid := s.size - s.size % blockSize })
    | .fetch => some ({ s with cur := s.cur + blockSize }.setThr t { s.thr t with pc := .count, off := s.cur })
    | .count => some (s.setPc t (.epoch (numEpochs k (s.thr t).off s.size (s.thr t).lastOff)))
    | .epoch (r + 1) => some ({ s with bar := s.bar.arrive t }.setPc t (.epochIn r))
    | .epoch 0 => some (s.setThr t { s.thr t with
        pc := if (s.thr t).valid ≤ (s.thr t).off then .finLock else .handle
        lastOff := (s.thr t).off })
    | .epochIn r => some (s.setPc t (.epoch r))
    | .handle => some (s.setPc t (if bad then .failLock else .deliver true))
    | .failLock => if s.owner = none then some ({ s with owner := some (some t) }.setPc t .failRead) else none
    | .failRead => some (s.setPc t .failErr)
    | .failErr => some ({ s with error := true }.setPc t .failCur)
    | .failCur => some ({ s with cur := bigOffset }.setPc t .failUnlock)
    | .failUnlock => some ({ s with owner := none }.setPc t (.deliver false))
    | .deliver ok => some ({ s with
        log := (if ok then .block (s.thr t).off else .failBlock (s.thr t).off) :: s.log }.setPc t (.inCall ok))
    | .inCall _ => some ({ s with log := .returned (s.thr t).off :: s.log }.setPc t .fetch)
    | .finLock | .finWoken => if s.owner = none then some ({ s with owner := some (some t) }.setPc t .finCmp) else none
    | .finCmp => some (s.setPc t (if s.finalizing then .finUnlock else .finQuit))
    | .finQuit => if s.quit then some (s.setPc t .finUnlock) else some ({ s with owner := none }.setPc t .finSleep)
    | .finSleep => none
    | .finUnlock => some ({ s with owner := none }.setPc t .finArr)
    | .finArr => some ({ s with bar := s.bar.arrive t }.setPc t .finIn)
    | .finIn => some (s.setPc t (if t.val = 0 then .rLock else .top))
    | .rLock => if s.owner = none then some ({ s with owner := some (some t) }.setPc t .rQuit) else none
    | .rQuit => some (s.setPc t (if s.quit then .rUnlockQuit else .rSize))
    | .rSize => some ({ s with size := 0 }.setPc t .rCur)
    | .rCur => some ({ s with cur := 0 }.setPc t .rErr)
    | .rErr => some (s.setPc t (.rErrSet s.error))
    | .rErrSet e => some ({ s with error := false }.setPc t (.rFin e))
    | .rFin e => some ({ s with finalizing := false }.setPc t (.rUnlock e))
    | .rUnlock e => some ({ s with owner := none }.setPc t (.callback (!e)))
    | .rUnlockQuit => some ({ s with owner := none }.setPc t .top)
    | .callback ok => some ({ s with log := .finalized ok :: s.log }.setPc t .inCallback)
    | .inCallback => some (s.setPc t .top)
    | .done => none

theorem next_work {bad : Bool} {t : Fin N} {s s' : FS N} (h : s.next k bad t = some s') : FWork k t s s' := by
  unfold FS.next at h
  split at h
  · rename_i g hw; cases h; exact .recheck hw
  · cases h
  · rename_i hw
    split at h <;> rename_i hp
    · cases h; split
      · exact .topQuit hp ‹_›
      · exact .topGo hp (by simp_all)
    · split at h <;> cases h; exact .trigLock (.inl hp) ‹_›
    · split at h <;> cases h; exact .trigLock (.inr hp) ‹_›
    · cases h; split
      · exact .trigEq hp ‹_›
      · exact .trigNe hp ‹_›
    · split at h <;> cases h
      · exact .trigQuit hp ‹_›
      · exact .trigWait hp (by simp_all)
    · cases h
    · cases h; exact .trigRead hp
    · cases h; exact .trigUnlock hp
    · cases h; exact .enter hp
    · cases h; exact .fetch hp
    · cases h; exact .count hp
    · cases h; exact .epochArrive hp
    · cases h; exact .epochEnd hp
    · cases h; exact .epochOut hp hw
    · cases h; split
      · exact .handleFail hp
      · exact .handleOk hp
    · split at h <;> cases h; exact .failLock hp ‹_›
    · cases h; exact .failRead hp
    · cases h; exact .failErr hp
    · cases h; exact .failCur hp
    · cases h; exact .failUnlock hp
    · cases h; exact .deliver hp
    · cases h; exact .callDone hp
    · split at h <;> cases h; exact .finLock (.inl hp) ‹_›
    · split at h <;> cases h; exact .finLock (.inr hp) ‹_›
    · cases h; split
      · exact .finTrue hp ‹_›
      · exact .finFalse hp (by simp_all)
    · split at h <;> cases h
      · exact .finQuit hp ‹_›
      · exact .finWait hp (by simp_all)
    · cases h
    · cases h; exact .finUnlock hp
    · cases h; exact .finArrive hp
    · cases h; exact .finOut hp hw
    · split at h <;> cases h; exact .rLock hp ‹_›
    · cases h; exact .rQuit hp
    · cases h; exact .rSize hp
    · cases h; exact .rCur hp
    · cases h; exact .rErr hp
    · cases h; exact .rErrSet hp
    · cases h; exact .rFin hp
    · cases h; exact .rUnlock hp
    · cases h; exact .rUnlockQuit hp
    · cases h; exact .callback hp
    · cases h; exact .callbackDone hp
    · cases h

/-- The next step of the user's call -/
def FS.nextUser (s : FS N) : Option (FS N) :=
  match s.usr with
  | .idle | .dsJoin => none
  | .stSize n => some { s with size := n, usr := .stLock n }
  | .stLock n => if s.owner = none then some { s with owner := some none, usr := .stTrig n } else none
  | .stTrig n => some { s with trig := s.trig + 1, usr := .stNotify, log := .start n :: s.log }
  | .stNotify => some { s with thr := fun t => (s.thr t).wake, usr := .unlock }
  | .fnLock c => if s.owner = none then some { s with owner := some none, usr := .fnFlag c } else none
  | .fnFlag c => some { s with finalizing := true, usr := .fnCur c }
  | .fnCur c => some { s with cur := if c then bigOffset else s.cur, usr := .fnNotify, log := .finalize c :: s.log }
  | .fnNotify => some { s with thr := fun t => (s.thr t).wake, usr := .unlock }
  | .unlock => some { s with owner := none, usr := .idle }
  | .dsLock => if s.owner = none then some { s with owner := some none, usr := .dsQuit } else none
  | .dsQuit => some { s with quit := true, usr := .dsCur }
  | .dsCur => some { s with cur := bigOffset, usr := .dsNotify, log := .destroy :: s.log }
  | .dsNotify => some { s with thr := fun t => (s.thr t).wake, usr := .dsIntr }
  | .dsIntr => some { s with bar := s.bar.interrupt, usr := .dsUnlock }
  | .dsUnlock => some { s with owner := none, usr := .dsJoin }

theorem nextUser_step {s s' : FS N} (h : s.nextUser = some s') : FUser s s' := by
  unfold FS.nextUser at h
  split at h <;> rename_i hp
  · cases h
  · cases h
  · cases h; exact .stSize hp
  · split at h <;> cases h; exact .stLock hp ‹_›
  · cases h; exact .stTrig hp
  · cases h; exact .stNotify hp
  · split at h <;> cases h; exact .fnLock hp ‹_›
  · cases h; exact .fnFlag hp
  · cases h; exact .fnCur hp
  · cases h; exact .fnNotify hp
  · cases h; exact .unlock hp
  · split at h <;> cases h; exact .dsLock hp ‹_›
  · cases h; exact .dsQuit hp
  · cases h; exact .dsCur hp
  · cases h; exact .dsNotify hp
  · cases h; exact .dsIntr hp
  · cases h; exact .dsUnlock hp

/-- What an execution does next. -/
inductive FAct (N : Nat)
  | go (t : Fin N) | bad (t : Fin N) | usr | start (n : Nat) | fin (c : Bool) | kill
  deriving DecidableEq

def FS.act (k : Option Nat) (s : FS N) : FAct N → Option (FS N)
  | .go t => s.next k false t
  | .bad t => s.next k true t
  | .usr => s.nextUser
  | .start n => if s.usr = .idle ∧ mayStart s.log ∧ n < bigOffset then some { s with usr := .stSize n } else none
  | .fin c => if s.usr = .idle ∧ mayFinalize s.log then some { s with usr := .fnLock c } else none
  | .kill => if s.usr = .idle then some { s with usr := .dsLock } else none

/-- Actions that are not possible are skipped. -/
def FS.acts (k : Option Nat) : List (FAct N) → FS N → FS N
  | [], s => s
  | a :: as, s => FS.acts k as ((s.act k a).getD s)

theorem facts_reach : ∀ (as : List (FAct N)) {s : FS N}, FReach k s → FReach k (s.acts k as) := by
  intro as
  induction as with
  | nil => intro s h; exact h
  | cons a as ih =>
    intro s h
    refine ih ?_
    cases ha : s.act k a with
    | none => exact h
    | some s1 =>
      show FReach k s1
      cases a with
      | go t => exact .step h (.inl ⟨t, next_work ha⟩)
      | bad t => exact .step h (.inl ⟨t, next_work ha⟩)
      | usr => exact .step h (.inr (nextUser_step ha))
      | start n =>
        simp only [FS.act] at ha
        split at ha <;> cases ha
        rename_i hc; exact .call h (.start hc.1 hc.2.1 hc.2.2)
      | fin c =>
        simp only [FS.act] at ha
        split at ha <;> cases ha
        rename_i hc; exact .call h (.finalize hc.1 hc.2)
      | kill =>
        simp only [FS.act] at ha
        split at ha <;> cases ha
        rename_i hc; exact .call h (.destroy hc)

end Lib842
