import Verif.Proofs.CompFine
import Verif.Proofs.CompQuit
/-!
# Termination and deadlock freedom of the fine-grained compression stream
-/

namespace Lib842
open Spec

variable {N : Nat} {k : Option Nat} {f f' : FS N} {c : CS N} {t : Fin N}

theorem fwork_usr (h : FWork k t f f') : f'.usr = f.usr := by cases h <;> rfl

/-- The steps of the call under way -/
def UPc.rank : UPc → Nat
  | .idle | .dsJoin => 0
  | .unlock | .dsUnlock => 1
  | .stNotify | .fnNotify | .dsIntr => 2
  | .stTrig _ | .fnCur _ | .dsNotify => 3
  | .stLock _ | .fnFlag _ | .dsCur => 4
  | .stSize _ | .fnLock _ | .dsQuit => 5
  | .dsLock => 6

theorem fuser_rank (h : FUser f f') : f'.usr.rank < f.usr.rank := by
  cases h <;> simp [UPc.rank, *]

theorem fstep_acc_aux (hk : EpochSetting k) : ∀ n (f : FS N) c, f.usr.rank = n → FRel k f c → CReach k c →
    Acc (fun f' f => FStep k f f') f := by
  intro n
  induction n using Nat.strongRecOn with
  | _ n ihn =>
    intro f c hn hr hc
    have ha := work_acc hk c hc
    induction ha generalizing f with
    | intro c _ ihc =>
      have main : ∀ w (f : FS N), f.wgt = w → f.usr.rank = n → FRel k f c → Acc (fun f' f => FStep k f f') f := by
        intro w
        induction w using Nat.strongRecOn with
        | _ w ihw =>
          intro f hw hn hr
          refine Acc.intro _ ?_
          rintro f' (⟨t, hs⟩ | hs)
          · obtain ⟨c', hr', h1 | ⟨rfl, h2⟩⟩ := hr.sim hk hc hs
            · exact ihc c' ⟨t, h1⟩ f' (by rw [fwork_usr hs]; exact hn) hr' (.work hc h1)
            · exact ihw _ (hw ▸ h2) f' rfl (by rw [fwork_usr hs]; exact hn) hr'
          · obtain ⟨c', hc', hr'⟩ := hr.simUser hk hc hs
            exact ihn _ (hn ▸ fuser_rank hs) f' c' rfl hr' hc'
      exact main _ f rfl hn hr

theorem fstep_acc (hk : EpochSetting k) (h : FReach k f) : Acc (fun f' f => FStep k f f') f := by
  obtain ⟨c, hc, hr⟩ := freach_rel hk h
  exact fstep_acc_aux hk _ f c rfl hr hc

/-- A thread inside a critical section can go on. -/
theorem held_step (h : (f.thr t).pc.held = true) : ∃ f', FWork k t f f' := by
  cases hp : (f.thr t).pc <;> rw [hp] at h <;> try (cases h; done)
  case trigCmp => exact (em (f.trig = (f.thr t).lastTrig)).elim (fun e => ⟨_, .trigEq hp e⟩) fun e => ⟨_, .trigNe hp e⟩
  case trigQuit => cases hq : f.quit; exacts [⟨_, .trigWait hp hq⟩, ⟨_, .trigQuit hp hq⟩]
  case trigRead => exact ⟨_, .trigRead hp⟩
  case trigUnlock => exact ⟨_, .trigUnlock hp⟩
  case failRead => exact ⟨_, .failRead hp⟩
  case failErr => exact ⟨_, .failErr hp⟩
  case failCur => exact ⟨_, .failCur hp⟩
  case failUnlock => exact ⟨_, .failUnlock hp⟩
  case finCmp => cases hq : f.finalizing; exacts [⟨_, .finFalse hp hq⟩, ⟨_, .finTrue hp hq⟩]
  case finQuit => cases hq : f.quit; exacts [⟨_, .finWait hp hq⟩, ⟨_, .finQuit hp hq⟩]
  case finUnlock => exact ⟨_, .finUnlock hp⟩
  case rQuit => exact ⟨_, .rQuit hp⟩
  case rSize => exact ⟨_, .rSize hp⟩
  case rCur => exact ⟨_, .rCur hp⟩
  case rErr => exact ⟨_, .rErr hp⟩
  case rErrSet => exact ⟨_, .rErrSet hp⟩
  case rFin => exact ⟨_, .rFin hp⟩
  case rUnlock => exact ⟨_, .rUnlock hp⟩
  case rUnlockQuit => exact ⟨_, .rUnlockQuit hp⟩

theorem user_step (h : f.usr.held = true) : ∃ f', FUser f f' := by
  cases hp : f.usr <;> rw [hp] at h <;> try (cases h; done)
  case stTrig => exact ⟨_, .stTrig hp⟩
  case stNotify => exact ⟨_, .stNotify hp⟩
  case fnFlag => exact ⟨_, .fnFlag hp⟩
  case fnCur => exact ⟨_, .fnCur hp⟩
  case fnNotify => exact ⟨_, .fnNotify hp⟩
  case unlock => exact ⟨_, .unlock hp⟩
  case dsQuit => exact ⟨_, .dsQuit hp⟩
  case dsCur => exact ⟨_, .dsCur hp⟩
  case dsNotify => exact ⟨_, .dsNotify hp⟩
  case dsIntr => exact ⟨_, .dsIntr hp⟩
  case dsUnlock => exact ⟨_, .dsUnlock hp⟩

/-- If nothing can happen, the user is in no call, or waits for the threads to end. -/
theorem fstuck_user (hr : FRel k f c) (hno : ∀ f', ¬ FStep k f f') : f.owner = none ∧ (f.usr = .idle ∨ f.usr = .dsJoin) := by
  have ho : f.owner = none := by
    cases ho : f.owner with
    | none => rfl
    | some o =>
      cases o with
      | none =>
        obtain ⟨f', hs⟩ := user_step (hr.uown.2 ho)
        exact absurd (.inr hs) (hno f')
      | some t =>
        obtain ⟨f', hs⟩ := held_step (k := k) ((hr.own t).2 ho)
        exact absurd (.inl ⟨t, hs⟩) (hno f')
  refine ⟨ho, ?_⟩
  have key : ∀ f', ¬ FUser f f' := fun f' hs => hno f' (.inr hs)
  have hh : f.usr.held = false := hr.usrNone ho
  cases hp : f.usr <;> rw [hp] at hh <;> try (cases hh; done)
  case idle => exact .inl rfl
  case stSize => exact absurd (.stSize hp) (key _)
  case stLock => exact absurd (.stLock hp ho) (key _)
  case fnLock => exact absurd (.fnLock hp ho) (key _)
  case dsLock => exact absurd (.dsLock hp ho) (key _)
  case dsJoin => exact .inr rfl

theorem fstuck_thr (hr : FRel k f c) (hno : ∀ f', ¬ FStep k f f') (t : Fin N) :
    (f.thr t).pc = .trigSleep ∨ (f.thr t).pc = .finSleep ∨ (f.thr t).pc = .done ∨ ∃ g, f.bar.wt t = .asleep g := by
  obtain ⟨ho, hu⟩ := fstuck_user hr hno
  have key : ∀ f', ¬ FWork k t f f' := fun f' hs => hno f' (.inl ⟨t, hs⟩)
  have hh : (f.thr t).pc.held = false := hr.thrNone ho t
  cases hw : f.bar.wt t with
  | awake g => exact absurd (.recheck hw) (key _)
  | asleep g => exact .inr (.inr (.inr ⟨g, rfl⟩))
  | out =>
    cases hp : (f.thr t).pc <;> rw [hp] at hh <;> try (cases hh; done)
    case top => cases hq : f.quit; exacts [absurd (.topGo hp hq) (key _), absurd (.topQuit hp hq) (key _)]
    case trigLock => exact absurd (.trigLock (.inl hp) ho) (key _)
    case trigSleep => exact .inl rfl
    case trigWoken => exact absurd (.trigLock (.inr hp) ho) (key _)
    case enter => exact absurd (.enter hp) (key _)
    case fetch => exact absurd (.fetch hp) (key _)
    case count => exact absurd (.count hp) (key _)
    case epoch r => cases r; exacts [absurd (.epochEnd hp) (key _), absurd (.epochArrive hp) (key _)]
    case epochIn => exact absurd (.epochOut hp hw) (key _)
    case handle => exact absurd (.handleOk hp) (key _)
    case failLock => exact absurd (.failLock hp ho) (key _)
    case deliver => exact absurd (.deliver hp) (key _)
    case inCall => exact absurd (.callDone hp) (key _)
    case finLock => exact absurd (.finLock (.inl hp) ho) (key _)
    case finSleep => exact .inr (.inl rfl)
    case finWoken => exact absurd (.finLock (.inr hp) ho) (key _)
    case finArr => exact absurd (.finArrive hp) (key _)
    case finIn => exact absurd (.finOut hp hw) (key _)
    case rLock => exact absurd (.rLock hp ho) (key _)
    case callback => exact absurd (.callback hp) (key _)
    case inCallback => exact absurd (.callbackDone hp) (key _)
    case done => exact .inr (.inr (.inl rfl))

theorem fstuck (hk : EpochSetting k) (hN : 0 < N) (h : FReach k f) (hno : ∀ f', ¬ FStep k f f') :
    (.destroy ∈ f.log ∧ f.usr = .dsJoin ∧ ∀ t, (f.thr t).pc = .done) ∨
    (.destroy ∉ f.log ∧ f.usr = .idle ∧ (mayStart f.log ∨ mayFinalize f.log)) := by
  obtain ⟨c, hc, hr⟩ := freach_rel hk h
  obtain ⟨ho, hu⟩ := fstuck_user hr hno
  have hd : f.usr.pend = false ∧ f.usr.dquit = false ∧ f.usr.dintr = false := by
    rcases hu with hu | hu <;> rw [hu] <;> exact ⟨rfl, rfl, rfl⟩
  have hst : ∀ t, c.stuck t := by
    intro t
    have hp := hr.cpc t
    rcases fstuck_thr hr hno t with h1 | h1 | h1 | ⟨g, h1⟩
    · refine .inl ?_
      rw [hp, hd.1]; simp [FThr.coPc, h1]
    · refine .inr (.inl ?_)
      rw [hp, hd.1]; simp [FThr.coPc, h1]
    · refine .inr (.inr (.inl ?_))
      rw [hp, hd.2.1]; simp [FThr.coPc, h1]
    · refine .inr (.inr (.inr ⟨g, ?_⟩))
      have hb := hr.bar
      have hi : f.bar.intr = false := by
        by_contra hx
        exact hb.awk (by simpa using hx) t g h1
      rw [hb.wt t (by rw [hb.intr, hi, hd.2.2]; rfl), h1]
  obtain ⟨arr, G, base, next, run, hi⟩ := creach_inv hk hc
  have hq := creach_quit hc
  rcases quiescent hi hN hst with ⟨h1, h2⟩ | ⟨h1, h2⟩
  · left
    rw [← hr.log]
    refine ⟨hq.1 h1, ?_, fun t => ?_⟩
    · rcases hu with hu | hu
      · have := hr.uloc
        rw [hu] at this
        have hx := hr.quit
        rw [h1, show f.quit = false from this] at hx
        cases hx
      · exact hu
    · have h3 := h2 t
      rw [hr.cpc t, hd.1, hd.2.1] at h3
      unfold FThr.coPc at h3
      cases hp : (f.thr t).pc <;> rw [hp] at h3 <;> first | rfl | cases h3
  · right
    rw [← hr.log]
    refine ⟨fun hx => ?_, ?_, h2⟩
    · rw [hq.2 hx] at h1; cases h1
    · rcases hu with hu | hu
      · exact hu
      · have := hr.uloc
        rw [hu] at this
        have hx := hr.quit
        rw [h1, show f.quit = true from this, hd.2.1] at hx
        cases hx

end Lib842
