import Verif.Model.CompFine
import Verif.Proofs.StreamRaces
import Mathlib.Algebra.BigOperators.Fin
import Mathlib.Algebra.Order.BigOperators.Group.Finset
/-!
# The fine-grained compression stream refines the coarse one
-/

namespace Lib842
open Spec

variable {N : Nat}

/-! ## The barrier while the destructor is at work -/

/-- `b` of the fine, `b'` of the coarse model; `di`: interrupted in the coarse model only -/
structure BRel (b b' : Bar N) (di : Bool) : Prop where
  count : b'.count = b.count
  gen : b'.gen = b.gen
  intr : b'.intr = (b.intr || di)
  wt : ∀ t, b'.intr = false → b'.wt t = b.wt t
  wtI : ∀ t, b'.intr = true → b'.wt t = (b.wt t).wake ∨ b'.wt t = .out
  awk : b.intr = true → ∀ t g, b.wt t ≠ .asleep g

theorem BWait.wake_wake (w : BWait) : w.wake.wake = w.wake := by cases w <;> rfl
theorem BWait.wake_ne (w : BWait) (g : BitVec 32) : w.wake ≠ .asleep g := by cases w <;> simp [wake]

namespace BRel
variable {b b' : Bar N} {di : Bool}

theorem out (h : BRel b b' di) {t : Fin N} (ht : b.wt t = .out) : b'.wt t = .out := by
  cases hi : b'.intr with
  | false => rw [h.wt t hi, ht]
  | true =>
    rcases h.wtI t hi with h1 | h1
    · rw [h1, ht]; rfl
    · exact h1

theorem notify (h : BRel b b' di) : BRel b.notifyAll b'.notifyAll di where
  count := h.count
  gen := h.gen
  intr := h.intr
  wt t hi := by show (b'.wt t).wake = (b.wt t).wake; rw [h.wt t hi]
  wtI t hi := by
    show (b'.wt t).wake = (b.wt t).wake.wake ∨ (b'.wt t).wake = .out
    rcases h.wtI t hi with h1 | h1
    · left; rw [h1]
    · right; rw [h1]; rfl
  awk _ t g := BWait.wake_ne _ _

/-- A change of one thread -/
theorem upd (h : BRel b b' di) (t : Fin N) (n : Nat) (w w' : BWait) (h1 : b'.intr = false → w' = w)
    (h2 : b'.intr = true → w' = w.wake ∨ w' = .out) (h3 : b.intr = true → ∀ g, w ≠ .asleep g) :
    BRel { b with count := n, wt := Function.update b.wt t w } { b' with count := n, wt := Function.update b'.wt t w' } di where
  count := rfl
  gen := h.gen
  intr := h.intr
  wt u hi := by
    show Function.update b'.wt t w' u = Function.update b.wt t w u
    by_cases hu : u = t
    · subst hu; simpa using h1 hi
    · simpa [hu] using h.wt u hi
  wtI u hi := by
    show Function.update b'.wt t w' u = (Function.update b.wt t w u).wake ∨ Function.update b'.wt t w' u = .out
    by_cases hu : u = t
    · subst hu; simpa using h2 hi
    · simpa [hu] using h.wtI u hi
  awk hi u g := by
    show Function.update b.wt t w u ≠ _
    by_cases hu : u = t
    · subst hu; simpa using h3 hi g
    · simpa [hu] using h.awk hi u g

theorem intr_false (h : BRel b b' di) (hi : b'.intr = false) : b.intr = false := by
  rw [h.intr] at hi
  exact (Bool.or_eq_false_iff.1 hi).1

theorem arrive (h : BRel b b' di) {t : Fin N} (ht : b.wt t = .out) : BRel (b.arrive t) (b'.arrive t) di := by
  obtain ⟨cb, gb, ib, wb⟩ := b
  obtain ⟨cb', gb', ib', wb'⟩ := b'
  obtain rfl : cb' = cb := h.count
  obtain rfl : gb' = gb := h.gen
  unfold Bar.arrive
  dsimp only
  split
  · exact BRel.notify ⟨rfl, rfl, h.intr, h.wt, h.wtI, h.awk⟩
  · have p1 : Bar.pred ⟨cb', gb', ib, wb⟩ gb' = ib := by simp [Bar.pred]
    have p2 : Bar.pred ⟨cb', gb', ib', wb'⟩ gb' = ib' := by simp [Bar.pred]
    rw [p1, p2]
    by_cases hi : ib' = true
    · rw [if_pos hi]
      by_cases hb : ib = true
      · rw [if_pos hb]
        exact ⟨rfl, rfl, h.intr, h.wt, h.wtI, h.awk⟩
      · rw [if_neg hb]
        have := h.upd t (cb' + 1) (.asleep gb') (wb' t) (fun hx => by rw [show ib' = false from hx] at hi; cases hi) (fun _ => .inr (h.out ht))
          (fun hx => absurd hx hb)
        rwa [Function.update_eq_self] at this
    · have hi' : ib' = false := by simpa using hi
      have hb : ib = false := h.intr_false hi'
      rw [if_neg hi, if_neg (by rw [hb]; simp)]
      exact h.upd t _ _ _ (fun _ => rfl) (fun hx => absurd hx hi) (fun hx => by rw [show ib = true from hx] at hb; cases hb)

theorem pred_of (h : BRel b b' di) {g : BitVec 32} (hp : b.pred g = true) : b'.pred g = true := by
  unfold Bar.pred at *
  rw [h.gen, h.intr]
  cases hb : b.intr
  · rw [hb] at hp; simp at hp; simp [hp]
  · simp

theorem recheck (h : BRel b b' di) {t : Fin N} {g : BitVec 32} (ht : b.wt t = .awake g) :
    (b'.wt t = .awake g ∧ BRel (b.recheck t g) (b'.recheck t g) di) ∨ BRel (b.recheck t g) b' di := by
  have hc : ∀ w w' : BWait, (b'.intr = false → w' = w) → (b'.intr = true → w' = w.wake ∨ w' = .out) → (b.intr = true → ∀ g, w ≠ .asleep g) →
      BRel { b with wt := Function.update b.wt t w } { b' with wt := Function.update b'.wt t w' } di := by
    intro w w' h1 h2 h3
    have := h.upd t b.count w w' h1 h2 h3
    rw [← h.count] at this
    rw [show ({ b with wt := Function.update b.wt t w } : Bar N) = { b with count := b'.count, wt := Function.update b.wt t w } by rw [h.count]]
    exact this
  have hs : b' = { b' with wt := Function.update b'.wt t (b'.wt t) } := by rw [Function.update_eq_self]
  unfold Bar.recheck
  by_cases hp : b.pred g = true
  · rw [if_pos hp, if_pos (h.pred_of hp)]
    by_cases hw : b'.wt t = .awake g
    · exact .inl ⟨hw, hc _ _ (fun _ => rfl) (fun _ => .inr rfl) (fun _ _ => by simp)⟩
    · right
      rw [hs]
      refine hc _ _ (fun hi => absurd (by rw [h.wt t hi, ht]) hw) (fun hi => ?_) (fun _ _ => by simp)
      rcases h.wtI t hi with h1 | h1
      · rw [ht] at h1; exact absurd h1 hw
      · exact .inr h1
  · rw [if_neg hp]
    have hbi : b.intr = false := by
      cases hb : b.intr
      · rfl
      · exact absurd (by simp [Bar.pred, hb]) hp
    by_cases hi : b'.intr = true
    rotate_left
    · have hi : b'.intr = false := by simpa using hi
      left
      refine ⟨by rw [h.wt t hi, ht], ?_⟩
      have hp' : ¬ b'.pred g = true := by
        unfold Bar.pred at *
        rw [hi, h.gen]; rw [hbi] at hp; exact hp
      rw [if_neg hp']
      exact hc _ _ (fun _ => rfl) (fun hx => by rw [hi] at hx; cases hx) (fun hx => by rw [hbi] at hx; cases hx)
    · right
      rw [hs]
      refine hc _ _ (fun hx => by rw [hi] at hx; cases hx) (fun _ => ?_) (fun hx => by rw [hbi] at hx; cases hx)
      have := h.wtI t hi
      rwa [ht] at this

theorem spurious (h : BRel b b' di) {t : Fin N} {g : BitVec 32} (ht : b.wt t = .asleep g) :
    (b'.wt t = .asleep g ∧ BRel (b.spurious t) (b'.spurious t) di) ∨ BRel (b.spurious t) b' di := by
  have hbi : b.intr = false := by
    cases hb : b.intr
    · rfl
    · exact absurd ht (h.awk hb t g)
  have hc : ∀ w w' : BWait, (b'.intr = false → w' = w) → (b'.intr = true → w' = w.wake ∨ w' = .out) →
      BRel { b with wt := Function.update b.wt t w } { b' with wt := Function.update b'.wt t w' } di := by
    intro w w' h1 h2
    have := h.upd t b.count w w' h1 h2 (fun hx => by rw [hbi] at hx; cases hx)
    rw [← h.count] at this
    rw [show ({ b with wt := Function.update b.wt t w } : Bar N) = { b with count := b'.count, wt := Function.update b.wt t w } by rw [h.count]]
    exact this
  have hs : b' = { b' with wt := Function.update b'.wt t (b'.wt t) } := by rw [Function.update_eq_self]
  unfold Bar.spurious
  by_cases hi : b'.intr = true
  rotate_left
  · have hi : b'.intr = false := by simpa using hi
    left
    have hw : b'.wt t = .asleep g := by rw [h.wt t hi, ht]
    refine ⟨hw, ?_⟩
    rw [hw, ht]
    exact hc _ _ (fun _ => rfl) (fun hx => by rw [hi] at hx; cases hx)
  · right
    rw [hs]
    refine hc _ _ (fun hx => by rw [hi] at hx; cases hx) (fun _ => ?_)
    have := h.wtI t hi
    rw [BWait.wake_wake]; exact this

theorem commit (h : BRel b b' false) : BRel b b'.interrupt true where
  count := h.count
  gen := h.gen
  intr := by simp [Bar.interrupt, Bar.notifyAll]
  wt t hi := by simp [Bar.interrupt, Bar.notifyAll] at hi
  wtI t _ := by
    show (b'.wt t).wake = _ ∨ (b'.wt t).wake = _
    cases hi : b'.intr with
    | false => left; rw [h.wt t hi]
    | true =>
      rcases h.wtI t hi with h1 | h1
      · left; rw [h1, BWait.wake_wake]
      · right; rw [h1]; rfl
  awk := h.awk

theorem interrupt (h : BRel b b' true) : BRel b.interrupt b' false where
  count := h.count
  gen := h.gen
  intr := by rw [h.intr]; simp [Bar.interrupt, Bar.notifyAll]
  wt t hi := by rw [h.intr] at hi; simp at hi
  wtI t hi := by
    show b'.wt t = (b.wt t).wake.wake ∨ _
    rw [BWait.wake_wake]; exact h.wtI t hi
  awk _ t g := BWait.wake_ne _ _

end BRel

/-! ## The relation -/

/-- inside a critical section -/
def FPc.held : FPc → Bool
  | .trigCmp | .trigQuit | .trigRead | .trigUnlock | .failRead | .failErr | .failCur | .failUnlock | .finCmp | .finQuit | .finUnlock
  | .rQuit | .rSize | .rCur | .rErr | .rErrSet _ | .rFin _ | .rUnlock _ | .rUnlockQuit => true
  | _ => false

def FPc.inBar : FPc → Bool
  | .epochIn _ | .finIn => true
  | _ => false

/-- `_size`, `_current_offset`, `_error` have been changed, but not in the coarse model -/
def FPc.dsize : FPc → Bool
  | .rCur | .rErr | .rErrSet _ | .rFin _ => true
  | _ => false

def FPc.dcur : FPc → Bool
  | .rErr | .rErrSet _ | .rFin _ => true
  | _ => false

def FPc.derr : FPc → Bool
  | .failCur | .rFin _ => true
  | _ => false

def UPc.held : UPc → Bool
  | .idle | .stSize _ | .stLock _ | .fnLock _ | .dsLock | .dsJoin => false
  | _ => true

/-- the threads have been woken up in the coarse model only -/
def UPc.pend : UPc → Bool
  | .stNotify | .fnNotify | .dsNotify => true
  | _ => false

def UPc.dsize : UPc → Bool
  | .stLock _ | .stTrig _ => true
  | _ => false

def UPc.dfin : UPc → Bool
  | .fnCur _ => true
  | _ => false

def UPc.dquit : UPc → Bool
  | .dsCur => true
  | _ => false

def UPc.dintr : UPc → Bool
  | .dsNotify | .dsIntr => true
  | _ => false

/-- the place in the coarse model -/
def FThr.coPc (k : Option Nat) (pend dq : Bool) (size : Nat) (th : FThr) : CPc :=
  match th.pc with
  | .top | .rUnlockQuit => .top
  | .trigLock | .trigCmp | .trigQuit | .trigWoken | .trigRead => .trig
  | .trigSleep => if pend then .trig else .trigSleep
  | .trigUnlock | .enter => .enter
  | .fetch => .fetch
  | .count => .epoch (numEpochs k th.off size th.lastOff)
  | .epoch r => .epoch r
  | .epochIn r => .epochIn r
  | .handle => .handle
  | .failLock | .failRead | .failErr | .failCur => .failed
  | .failUnlock => .deliver false
  | .deliver ok => .deliver ok
  | .inCall ok => .inCall ok
  | .finLock | .finCmp | .finQuit | .finWoken => .fin
  | .finSleep => if pend then .fin else .finSleep
  | .finUnlock | .finArr => .finArr
  | .finIn => .finIn
  | .rLock | .rQuit | .rSize | .rCur | .rErr | .rErrSet _ | .rFin _ => .reset
  | .rUnlock e => .callback (!e)
  | .callback ok => .callback ok
  | .inCallback => .inCallback
  | .done => if dq then .top else .done

def FThr.co (k : Option Nat) (pend dq : Bool) (size : Nat) (th : FThr) : CThr :=
  { pc := th.coPc k pend dq size, lastTrig := th.lastTrig, lastOff := th.lastOff, off := th.off, valid := th.valid }

/-- What a thread inside a critical section knows; `cerr` is `_error` in the coarse model. -/
def FThr.Loc (th : FThr) (trig : BitVec 32) (quit fin err : Bool) (size cur : Nat) (cerr : Bool) : Prop :=
  match th.pc with
  | .trigQuit => trig = th.lastTrig
  | .trigRead => trig ≠ th.lastTrig ∨ quit = true
  | .finQuit => fin = false
  | .failCur => err = true
  | .rSize => quit = false
  | .rCur => quit = false ∧ size = 0
  | .rErr => quit = false ∧ size = 0 ∧ cur = 0
  | .rErrSet e => quit = false ∧ size = 0 ∧ cur = 0 ∧ e = cerr
  | .rFin e => quit = false ∧ size = 0 ∧ cur = 0 ∧ e = cerr ∧ err = false
  | _ => True

/-- What the user knows. -/
def UPc.Loc (quit fin : Bool) (size : Nat) (log : List Ev) : UPc → Prop
  | .idle | .stNotify | .fnNotify | .unlock | .dsLock | .dsQuit => quit = false
  | .stSize n => quit = false ∧ mayStart log ∧ n < bigOffset
  | .stLock n | .stTrig n => quit = false ∧ mayStart log ∧ n < bigOffset ∧ size = n
  | .fnLock _ | .fnFlag _ => quit = false ∧ mayFinalize log
  | .fnCur _ => quit = false ∧ mayFinalize log ∧ fin = true
  | .dsCur | .dsNotify | .dsIntr | .dsUnlock | .dsJoin => quit = true

structure FRel (k : Option Nat) (f : FS N) (c : CS N) : Prop where
  own : ∀ t, (f.thr t).pc.held = true ↔ f.owner = some (some t)
  uown : f.usr.held = true ↔ f.owner = some none
  trig : c.trig = f.trig
  size : f.usr.dsize = false → (∀ t, (f.thr t).pc.dsize = false) → c.size = f.size
  cur : (∀ t, (f.thr t).pc.dcur = false) → c.cur = f.cur
  err : (∀ t, (f.thr t).pc.derr = false) → c.error = f.error
  fin : f.usr.dfin = false → c.finalizing = f.finalizing
  quit : c.quit = (f.quit && !f.usr.dquit)
  bar : BRel f.bar c.bar f.usr.dintr
  wtOut : ∀ t, (f.thr t).pc.inBar = false → f.bar.wt t = .out
  thr : ∀ t, c.thr t = (f.thr t).co k f.usr.pend f.usr.dquit f.size
  loc : ∀ t, (f.thr t).Loc f.trig f.quit f.finalizing f.error f.size f.cur c.error
  uloc : f.usr.Loc f.quit f.finalizing f.size f.log
  log : c.log = f.log

theorem FPc.dsize_held {p : FPc} (h : p.dsize = true) : p.held = true := by cases p <;> simp_all [dsize, held]
theorem FPc.dcur_dsize {p : FPc} (h : p.dcur = true) : p.dsize = true := by cases p <;> simp_all [dsize, dcur]
theorem FPc.derr_held {p : FPc} (h : p.derr = true) : p.held = true := by cases p <;> simp_all [derr, held]
theorem FThr.loc_free {th : FThr} (h : th.pc.held = false) {trig quit fin err size cur cerr} : th.Loc trig quit fin err size cur cerr := by
  unfold Loc
  cases hp : th.pc <;> rw [hp] at h <;> simp_all [FPc.held]
theorem UPc.dquit_held {u : UPc} (h : u.held = false) : u.dquit = false := by cases u <;> simp_all [dquit, held]
theorem UPc.dfin_held {u : UPc} (h : u.held = false) : u.dfin = false := by cases u <;> simp_all [dfin, held]
theorem UPc.pend_held {u : UPc} (h : u.held = false) : u.pend = false := by cases u <;> simp_all [pend, held]

namespace FRel
variable {k : Option Nat} {f : FS N} {c : CS N}

theorem alone (h : FRel k f c) {t : Fin N} (ht : (f.thr t).pc.held = true) {u : Fin N} (hu : u ≠ t) : (f.thr u).pc.held = false := by
  by_contra hc
  have h1 := (h.own t).1 ht
  have h2 := (h.own u).1 (by simpa using hc)
  rw [h1] at h2
  cases h2
  exact hu rfl

theorem usrFree (h : FRel k f c) {t : Fin N} (ht : (f.thr t).pc.held = true) : f.usr.held = false := by
  by_contra hc
  have h1 := (h.own t).1 ht
  have h2 := h.uown.1 (by simpa using hc)
  rw [h1] at h2
  cases h2

theorem thrFree (h : FRel k f c) (hu : f.usr.held = true) (t : Fin N) : (f.thr t).pc.held = false := by
  by_contra hc
  have := h.usrFree (by simpa using hc : (f.thr t).pc.held = true)
  rw [hu] at this; cases this

theorem thrNone (h : FRel k f c) (ho : f.owner = none) (t : Fin N) : (f.thr t).pc.held = false := by
  by_contra hc
  have := (h.own t).1 (by simpa using hc)
  rw [ho] at this; cases this

theorem usrNone (h : FRel k f c) (ho : f.owner = none) : f.usr.held = false := by
  by_contra hc
  have := h.uown.1 (by simpa using hc)
  rw [ho] at this; cases this

theorem not_dsize {p : FPc} (h : p.held = false) : p.dsize = false := by
  by_contra hc
  rw [FPc.dsize_held (by simpa using hc)] at h; cases h
theorem not_dcur {p : FPc} (h : p.dsize = false) : p.dcur = false := by
  by_contra hc
  rw [FPc.dcur_dsize (by simpa using hc)] at h; cases h
theorem not_derr {p : FPc} (h : p.held = false) : p.derr = false := by
  by_contra hc
  rw [FPc.derr_held (by simpa using hc)] at h; cases h

theorem quit_eq (h : FRel k f c) {t : Fin N} (ht : (f.thr t).pc.held = true) : c.quit = f.quit := by
  rw [h.quit, UPc.dquit_held (h.usrFree ht)]; simp

theorem co_reset {th : FThr} (h : th.pc.dsize = true) {pend dq : Bool} {sz : Nat} : (th.co k pend dq sz).pc = .reset := by
  cases hp : th.pc <;> rw [hp] at h <;> simp_all [FPc.dsize, FThr.co, FThr.coPc]

theorem loc_quit {th : FThr} (h : th.pc.dsize = true) {trig quit fin err size cur cerr} (hl : th.Loc trig quit fin err size cur cerr) :
    quit = false := by
  unfold FThr.Loc at hl
  cases hp : th.pc <;> rw [hp] at h hl <;> simp_all [FPc.dsize]

theorem uloc_quit {u : UPc} (h : u.dsize = true) {quit fin size log} (hl : u.Loc quit fin size log) : quit = false ∧ mayStart log := by
  cases u <;> simp_all [UPc.dsize, UPc.Loc]

/-- A thread in the middle of an operation: `_size` and `_current_offset` are those of the coarse model. -/
theorem busy (h : FRel k f c) (hk : EpochSetting k) (hc : CReach k c) {t : Fin N} (ht : (c.thr t).pc.idle = false) :
    f.usr.dsize = false ∧ ∀ u, (f.thr u).pc.dsize = false := by
  constructor
  · by_contra hu
    obtain ⟨h1, h2⟩ := uloc_quit (by simpa using hu) h.uloc
    have := (creach_start_idle hk hc (by rw [h.quit, h1]; rfl) (by rw [h.log]; exact h2) t).1
    rw [ht] at this; cases this
  · intro u
    by_contra hu
    have hu : (f.thr u).pc.dsize = true := by simpa using hu
    have h1 := loc_quit hu (h.loc u)
    have := creach_reset_idle hk hc (by rw [h.quit, h1]; rfl) (t := u) (by rw [h.thr u]; exact co_reset hu) t
    rw [ht] at this; cases this

/-- how the owner of the mutex may change when thread `t` goes to `th` -/
def Own (f : FS N) (t : Fin N) (th : FThr) (o : Option (Option (Fin N))) : Prop :=
  (o = f.owner ∧ th.pc.held = (f.thr t).pc.held) ∨ (f.owner = none ∧ o = some (some t) ∧ th.pc.held = true) ∨
    ((f.thr t).pc.held = true ∧ o = none ∧ th.pc.held = false)

theorem own_step (h : FRel k f c) {t : Fin N} {th : FThr} {o : Option (Option (Fin N))} (ho : Own f t th o) (u : Fin N) :
    ((Function.update f.thr t th) u).pc.held = true ↔ o = some (some u) := by
  rcases ho with ⟨h1, h2⟩ | ⟨h1, h2, h3⟩ | ⟨h1, h2, h3⟩
  · subst h1
    by_cases hu : u = t
    · subst hu; simp only [Function.update_self, h2]; exact h.own u
    · simp only [Function.update_of_ne hu]; exact h.own u
  · subst h2
    by_cases hu : u = t
    · subst hu; simp [h3]
    · simp only [Function.update_of_ne hu, h.thrNone h1 u]
      simp [Ne.symm hu]
  · subst h2
    by_cases hu : u = t
    · subst hu; simp [h3]
    · simp only [Function.update_of_ne hu, h.alone h1 hu]
      simp

theorem uown_step (h : FRel k f c) {t : Fin N} {th : FThr} {o : Option (Option (Fin N))} (ho : Own f t th o) :
    f.usr.held = true ↔ o = some none := by
  rcases ho with ⟨h1, h2⟩ | ⟨h1, h2, h3⟩ | ⟨h1, h2, h3⟩
  · subst h1; exact h.uown
  · subst h2; rw [h.usrNone h1]; simp
  · subst h2; rw [h.usrFree h1]; simp

theorem forall_upd {f : FS N} {t : Fin N} {th : FThr} {P : FThr → Prop} (h : ∀ u, P (Function.update f.thr t th u)) (h0 : P th → P (f.thr t)) :
    ∀ u, P (f.thr u) := by
  intro u
  have := h u
  by_cases hu : u = t
  · subst hu; simp only [Function.update_self] at this; exact h0 this
  · simp only [Function.update_of_ne hu] at this; exact this

/-- events of the threads -/
def LogOk (l l' : List Ev) : Prop := l' = l ∨ ∃ e, l' = e :: l ∧ e.isStart = false ∧ ∀ c, e ≠ .finalize c

theorem LogOk.start {l l' : List Ev} (h : LogOk l l') (hm : mayStart l) : mayStart l' := by
  rcases h with rfl | ⟨e, rfl, he, _⟩
  · exact hm
  · rcases hm with h1 | ⟨ok, h1⟩
    · left; rw [started_cons he]; exact h1
    · right; exact ⟨ok, by rw [curOp_cons he]; exact List.mem_cons_of_mem _ h1⟩

theorem LogOk.final {l l' : List Ev} (h : LogOk l l') (hm : mayFinalize l) : mayFinalize l' := by
  rcases h with rfl | ⟨e, rfl, he, hf⟩
  · exact hm
  · refine ⟨by rw [started_cons he]; exact hm.1, fun c => ?_⟩
    rw [curOp_cons he]
    intro hx
    rcases List.mem_cons.1 hx with hx | hx
    · exact hf c hx.symm
    · exact hm.2 c hx

theorem LogOk.uloc {l l' : List Ev} (h : LogOk l l') {u : UPc} {quit fin size} (hl : u.Loc quit fin size l) : u.Loc quit fin size l' := by
  cases u <;> simp only [UPc.Loc] at hl ⊢ <;> first
    | exact hl
    | exact ⟨hl.1, h.start hl.2.1, hl.2.2⟩
    | exact ⟨hl.1, h.final hl.2⟩
    | exact ⟨hl.1, h.final hl.2.1, hl.2.2⟩

/-- A step of thread `t` that changes nothing but its own place, the barrier and the trace -/
theorem go (h : FRel k f c) {t : Fin N} {th : FThr} {o : Option (Option (Fin N))} {b b' : Bar N} {l : List Ev}
    (ho : Own f t th o) (hd : th.pc.dsize = (f.thr t).pc.dsize) (hd2 : th.pc.dcur = (f.thr t).pc.dcur)
    (hd3 : th.pc.derr = (f.thr t).pc.derr)
    (hb : BRel b b' f.usr.dintr) (hwt : ∀ u, u ≠ t → f.bar.wt u = .out → b.wt u = .out) (hwt' : th.pc.inBar = false → b.wt t = .out)
    (hl : th.Loc f.trig f.quit f.finalizing f.error f.size f.cur c.error) (hlog : LogOk f.log l) :
    FRel k { f with owner := o, bar := b, thr := Function.update f.thr t th, log := l }
      { c with bar := b', thr := Function.update c.thr t (th.co k f.usr.pend f.usr.dquit f.size), log := l } where
  own := h.own_step ho
  uown := h.uown_step ho
  trig := h.trig
  size h1 h2 := h.size h1 (forall_upd (P := fun x => x.pc.dsize = false) h2 (by rw [hd]; exact id))
  cur h1 := h.cur (forall_upd (P := fun x => x.pc.dcur = false) h1 (by rw [hd2]; exact id))
  err h1 := h.err (forall_upd (P := fun x => x.pc.derr = false) h1 (by rw [hd3]; exact id))
  fin := h.fin
  quit := h.quit
  bar := hb
  wtOut u := by
    show (Function.update f.thr t th u).pc.inBar = false → _
    by_cases hu : u = t
    · subst hu; simpa using hwt'
    · simp only [Function.update_of_ne hu]; exact fun hx => hwt u hu (h.wtOut u hx)
  thr u := by
    show Function.update c.thr t _ u = (Function.update f.thr t th u).co _ _ _ _
    by_cases hu : u = t
    · subst hu; simp
    · simp only [Function.update_of_ne hu]; exact h.thr u
  loc u := by
    show (Function.update f.thr t th u).Loc _ _ _ _ _ _ _
    by_cases hu : u = t
    · subst hu; simpa using hl
    · simp only [Function.update_of_ne hu]; exact h.loc u
  uloc := hlog.uloc h.uloc
  log := rfl

/-- The same without a change of the trace -/
theorem goBar (h : FRel k f c) {t : Fin N} {th : FThr} {o : Option (Option (Fin N))} {b b' : Bar N}
    (ho : Own f t th o) (hd : th.pc.dsize = (f.thr t).pc.dsize) (hd2 : th.pc.dcur = (f.thr t).pc.dcur)
    (hd3 : th.pc.derr = (f.thr t).pc.derr)
    (hb : BRel b b' f.usr.dintr) (hwt : ∀ u, u ≠ t → f.bar.wt u = .out → b.wt u = .out) (hwt' : th.pc.inBar = false → b.wt t = .out)
    (hl : th.Loc f.trig f.quit f.finalizing f.error f.size f.cur c.error) :
    FRel k { f with owner := o, bar := b, thr := Function.update f.thr t th }
      { c with bar := b', thr := Function.update c.thr t (th.co k f.usr.pend f.usr.dquit f.size) } := by
  have := h.go ho hd hd2 hd3 hb hwt hwt' hl (.inl rfl)
  exact ⟨this.own, this.uown, this.trig, this.size, this.cur, this.err, this.fin, this.quit, this.bar, this.wtOut, this.thr, this.loc, this.uloc, h.log⟩

/-- Such a step, of the pc only -/
theorem goPc (h : FRel k f c) {t : Fin N} {th : FThr} {o : Option (Option (Fin N))}
    (ho : Own f t th o) (hd : th.pc.dsize = (f.thr t).pc.dsize) (hd2 : th.pc.dcur = (f.thr t).pc.dcur)
    (hd3 : th.pc.derr = (f.thr t).pc.derr) (hwt' : th.pc.inBar = false → f.bar.wt t = .out)
    (hl : th.Loc f.trig f.quit f.finalizing f.error f.size f.cur c.error) :
    FRel k ({ f with owner := o }.setThr t th) (c.setThr t (th.co k f.usr.pend f.usr.dquit f.size)) := by
  have := h.go ho hd hd2 hd3 h.bar (fun _ _ => id) hwt' hl (.inl rfl)
  rw [← h.log] at this
  rw [FS.setThr, CS.setThr]
  convert this using 2
  exact h.log.symm

/-- The same without a step of the coarse model -/
theorem stay (h : FRel k f c) {t : Fin N} {th : FThr} {o : Option (Option (Fin N))}
    (ho : Own f t th o) (hd : th.pc.dsize = (f.thr t).pc.dsize) (hd2 : th.pc.dcur = (f.thr t).pc.dcur)
    (hd3 : th.pc.derr = (f.thr t).pc.derr) (hwt' : th.pc.inBar = false → f.bar.wt t = .out)
    (hl : th.Loc f.trig f.quit f.finalizing f.error f.size f.cur c.error)
    (hco : th.co k f.usr.pend f.usr.dquit f.size = (f.thr t).co k f.usr.pend f.usr.dquit f.size) :
    FRel k ({ f with owner := o }.setThr t th) c := by
  have := h.goPc ho hd hd2 hd3 hwt' hl
  rw [hco, ← h.thr t] at this
  rwa [show c.setThr t (c.thr t) = c by simp [CS.setThr]] at this

/-- A thread writes members inside its critical section. -/
theorem write (h : FRel k f c) {t : Fin N} {p p' : FPc} {sz cu sz' cu' : Nat} {er er' : Bool} (hpc : (f.thr t).pc = p)
    (hp : p.held = true) (hp' : p'.held = true) (hsz : p'.dsize = false → f.usr.dsize = false → sz' = sz) (hcu : p'.dcur = false → cu' = cu)
    (her : p'.derr = false → er' = er) (hus : sz = f.size ∨ (f.usr.dsize = false ∧ ∀ u, (f.thr u).pc ≠ .count))
    (hl : FThr.Loc { f.thr t with pc := p' } f.trig f.quit f.finalizing er sz cu er') {q : CPc}
    (hq : FThr.coPc k f.usr.pend f.usr.dquit sz { f.thr t with pc := p' } = q) :
    FRel k ({ f with size := sz, cur := cu, error := er }.setPc t p') ({ c with size := sz', cur := cu', error := er' }.setPc t q) := by
  have ht : (f.thr t).pc.held = true := by rw [hpc]; exact hp
  have hw : f.bar.wt t = .out := h.wtOut t (by
    cases hx : (f.thr t).pc <;> rw [hx] at ht <;> simp_all [FPc.held, FPc.inBar])
  have hu := h.usrFree ht
  have hall : ∀ {P : FThr → Prop}, (∀ u, P (Function.update f.thr t { f.thr t with pc := p' } u)) → P { f.thr t with pc := p' } := by
    intro P hP
    have := hP t
    rwa [Function.update_self] at this
  refine ⟨?_, h.uown, h.trig, ?_, ?_, ?_, h.fin, h.quit, h.bar, ?_, ?_, ?_, ?_, h.log⟩
  · exact h.own_step (.inl ⟨rfl, by rw [hpc, hp]; exact hp'⟩)
  · intro h1 h2
    exact hsz (hall (P := fun x => x.pc.dsize = false) h2) h1
  · intro h1
    exact hcu (hall (P := fun x => x.pc.dcur = false) h1)
  · intro h1
    exact her (hall (P := fun x => x.pc.derr = false) h1)
  · intro u
    show (Function.update f.thr t _ u).pc.inBar = false → _
    by_cases hut : u = t
    · subst hut; exact fun _ => hw
    · simp only [Function.update_of_ne hut]; exact h.wtOut u
  · intro u
    show Function.update c.thr t _ u = (Function.update f.thr t _ u).co _ _ _ _
    by_cases hut : u = t
    · subst hut
      simp only [Function.update_self]
      show ({ c.thr u with pc := q } : CThr) = FThr.co k f.usr.pend f.usr.dquit sz { f.thr u with pc := p' }
      rw [h.thr u]
      simp only [FThr.co, hq]
    · simp only [Function.update_of_ne hut]
      rw [h.thr u]
      show _ = FThr.co k f.usr.pend f.usr.dquit sz (f.thr u)
      rcases hus with rfl | ⟨_, h2⟩
      · rfl
      · have := h2 u
        unfold FThr.co FThr.coPc
        cases hx : (f.thr u).pc <;> simp_all
  · intro u
    show (Function.update f.thr t _ u).Loc _ _ _ _ _ _ _
    by_cases hut : u = t
    · subst hut; simp only [Function.update_self]; exact hl
    · simp only [Function.update_of_ne hut]
      exact FThr.loc_free (h.alone ht hut)
  · show f.usr.Loc f.quit f.finalizing sz f.log
    have h1 := h.uloc
    rcases hus with rfl | ⟨h2, _⟩
    · exact h1
    · cases hx : f.usr <;> rw [hx] at h1 h2 hu <;> simp_all [UPc.Loc, UPc.dsize]

/-- steps to go until the coarse model takes a step -/
def _root_.Lib842.FPc.rank : FPc → Nat
  | .trigWoken | .trigLock | .failLock | .finLock | .finWoken | .rLock => 9
  | .trigCmp | .failRead | .finCmp | .rQuit => 8
  | .trigQuit | .failErr | .finQuit | .rSize => 7
  | .trigRead | .failCur | .rCur => 6
  | .rErr => 5
  | .rErrSet _ => 4
  | .rFin _ => 3
  | .rUnlockQuit => 2
  | .top | .trigUnlock | .count | .failUnlock | .finUnlock | .rUnlock _ => 1
  | _ => 0

def _root_.Lib842.BWait.rnk : BWait → Nat
  | .awake _ => 1
  | _ => 0

def _root_.Lib842.FS.wgt (f : FS N) : Nat := ∑ t, ((f.thr t).pc.rank + (f.bar.wt t).rnk)

theorem wgt_lt {f f' : FS N} {t : Fin N} (h : ∀ u, u ≠ t → f'.thr u = f.thr u ∧ f'.bar.wt u = f.bar.wt u)
    (ht : (f'.thr t).pc.rank + (f'.bar.wt t).rnk < (f.thr t).pc.rank + (f.bar.wt t).rnk) : f'.wgt < f.wgt := by
  refine Finset.sum_lt_sum (fun u _ => ?_) ⟨t, Finset.mem_univ _, ht⟩
  by_cases hu : u = t
  · subst hu; exact Nat.le_of_lt ht
  · rw [(h u hu).1, (h u hu).2]

/-- The step `f` to `f'` of thread `t` is a step of the coarse model, or brings it nearer. -/
def Sim (k : Option Nat) (t : Fin N) (f f' : FS N) (c : CS N) : Prop :=
  ∃ c', FRel k f' c' ∧ (CWork k t c c' ∨ (c' = c ∧ f'.wgt < f.wgt))

theorem stayPc (h : FRel k f c) {t : Fin N} {p p' : FPc} {o : Option (Option (Fin N))} (hpc : (f.thr t).pc = p)
    (ho : Own f t { f.thr t with pc := p' } o) (hd : p'.dsize = p.dsize ∧ p'.dcur = p.dcur ∧ p'.derr = p.derr ∧ p.inBar = false ∧ p'.rank < p.rank)
    (hl : FThr.Loc { f.thr t with pc := p' } f.trig f.quit f.finalizing f.error f.size f.cur c.error)
    (hco : FThr.coPc k f.usr.pend f.usr.dquit f.size { f.thr t with pc := p' } = (f.thr t).coPc k f.usr.pend f.usr.dquit f.size) :
    Sim k t f ({ f with owner := o }.setPc t p') c := by
  refine ⟨c, h.stay ho (by rw [hpc]; exact hd.1) (by rw [hpc]; exact hd.2.1) (by rw [hpc]; exact hd.2.2.1)
    (fun _ => h.wtOut t (by rw [hpc]; exact hd.2.2.2.1)) hl (by simp only [FThr.co, hco]), .inr ⟨rfl, ?_⟩⟩
  refine wgt_lt (t := t) (fun u hu => ?_) ?_
  · simp [FS.setPc, FS.setThr, hu]
  · simp only [FS.setPc, FS.setThr, Function.update_self, hpc]
    have := hd.2.2.2.2
    omega

theorem movePc (h : FRel k f c) {t : Fin N} {p p' : FPc} {o : Option (Option (Fin N))} (hpc : (f.thr t).pc = p)
    (ho : Own f t { f.thr t with pc := p' } o) (hd : p'.dsize = p.dsize ∧ p'.dcur = p.dcur ∧ p'.derr = p.derr ∧ p'.inBar = false)
    (hwt : f.bar.wt t = .out)
    (hl : FThr.Loc { f.thr t with pc := p' } f.trig f.quit f.finalizing f.error f.size f.cur c.error) {q : CPc}
    (hw : CWork k t c (c.setPc t q)) (hco : FThr.coPc k f.usr.pend f.usr.dquit f.size { f.thr t with pc := p' } = q) :
    Sim k t f ({ f with owner := o }.setPc t p') c := by
  refine ⟨_, ?_, .inl hw⟩
  have := h.goPc ho (by rw [hpc]; exact hd.1) (by rw [hpc]; exact hd.2.1) (by rw [hpc]; exact hd.2.2.1) (fun _ => hwt) hl
  rw [show c.setPc t q = c.setThr t (FThr.co k f.usr.pend f.usr.dquit f.size { f.thr t with pc := p' }) by
    unfold CS.setPc; rw [h.thr t]; simp only [FThr.co, hco]]
  exact this

theorem keep {f : FS N} {t : Fin N} {p p' : FPc} (hpc : (f.thr t).pc = p) (h : p'.held = p.held) : Own f t { f.thr t with pc := p' } f.owner :=
  .inl ⟨rfl, by rw [hpc]; exact h⟩
theorem acquire {f : FS N} {t : Fin N} {p' : FPc} (ho : f.owner = none) (h : p'.held = true) :
    Own f t { f.thr t with pc := p' } (some (some t)) := .inr (.inl ⟨ho, rfl, h⟩)
theorem release {f : FS N} {t : Fin N} {p p' : FPc} (hpc : (f.thr t).pc = p) (hp : p.held = true) (h : p'.held = false) :
    Own f t { f.thr t with pc := p' } none := .inr (.inr ⟨by rw [hpc]; exact hp, rfl, h⟩)

theorem cpc (h : FRel k f c) (t : Fin N) : (c.thr t).pc = (f.thr t).coPc k f.usr.pend f.usr.dquit f.size := by rw [h.thr t]; rfl

theorem arrive_out {b : Bar N} {t u : Fin N} (hu : u ≠ t) (h : b.wt u = .out) : (b.arrive t).wt u = .out := by
  unfold Bar.arrive
  split
  · show (b.wt u).wake = .out; rw [h]; rfl
  · split
    · exact h
    · show Function.update b.wt t _ u = .out
      rw [Function.update_of_ne hu]; exact h

theorem setCur (h : FRel k f c) (hn : ∀ u, (f.thr u).pc.dsize = false) (x : Nat) : FRel k { f with cur := x } { c with cur := x } :=
  { h with
    cur := fun _ => rfl
    loc := fun u => by
      have h1 := h.loc u
      have h2 := hn u
      show (f.thr u).Loc _ _ _ _ _ x _
      unfold FThr.Loc at h1 ⊢
      cases hp : (f.thr u).pc <;> rw [hp] at h1 h2 <;> simp_all [FPc.dsize] }

theorem setBar (h : FRel k f c) {b b' : Bar N} (hb : BRel b b' f.usr.dintr) (hw : ∀ u, f.bar.wt u = .out → b.wt u = .out) :
    FRel k { f with bar := b } { c with bar := b' } :=
  { h with
    bar := hb
    wtOut := fun u hu => hw u (h.wtOut u hu) }

theorem size_held (h : FRel k f c) {t : Fin N} (ht : (f.thr t).pc.held = true) (hd : (f.thr t).pc.dsize = false) (hu : f.usr.dsize = false) :
    c.size = f.size :=
  h.size hu fun u => by
    by_cases hut : u = t
    · rw [hut]; exact hd
    · exact not_dsize (h.alone ht hut)

theorem cur_held (h : FRel k f c) {t : Fin N} (ht : (f.thr t).pc.held = true) (hd : (f.thr t).pc.dcur = false) : c.cur = f.cur :=
  h.cur fun u => by
    by_cases hut : u = t
    · rw [hut]; exact hd
    · exact not_dcur (not_dsize (h.alone ht hut))

theorem err_held (h : FRel k f c) {t : Fin N} (ht : (f.thr t).pc.held = true) (hd : (f.thr t).pc.derr = false) : c.error = f.error :=
  h.err fun u => by
    by_cases hut : u = t
    · rw [hut]; exact hd
    · exact not_derr (h.alone ht hut)

/-- The leader inside its critical section: nobody else is in the middle of an operation. -/
theorem reset_alone (h : FRel k f c) (hk : EpochSetting k) (hc : CReach k c) {t : Fin N} (hp : (c.thr t).pc = .reset) (hq : c.quit = false) :
    f.usr.dsize = false ∧ ∀ u, (f.thr u).pc ≠ .count := by
  constructor
  · by_contra hu
    obtain ⟨h1, h2⟩ := uloc_quit (by simpa using hu) h.uloc
    exact (creach_start_idle hk hc hq (by rw [h.log]; exact h2) t).2 hp
  · intro u hu
    have := creach_reset_idle hk hc hq hp u
    rw [h.cpc u] at this
    simp [FThr.coPc, hu, CPc.idle] at this

theorem setPc_self {c : CS N} {t : Fin N} {q : CPc} (h : (c.thr t).pc = q) : c.setPc t q = c := by
  unfold CS.setPc CS.setThr
  rw [← h]
  simp

theorem writeStay (h : FRel k f c) {t : Fin N} {p p' : FPc} {sz cu : Nat} {er : Bool} (hpc : (f.thr t).pc = p)
    (hp : p.held = true) (hp' : p'.held = true) (hr : p'.rank < p.rank)
    (hsz : p'.dsize = false → f.usr.dsize = false → c.size = sz) (hcu : p'.dcur = false → c.cur = cu)
    (her : p'.derr = false → c.error = er) (hus : sz = f.size ∨ (f.usr.dsize = false ∧ ∀ u, (f.thr u).pc ≠ .count))
    (hl : FThr.Loc { f.thr t with pc := p' } f.trig f.quit f.finalizing er sz cu c.error)
    (hq : FThr.coPc k f.usr.pend f.usr.dquit sz { f.thr t with pc := p' } = (f.thr t).coPc k f.usr.pend f.usr.dquit f.size) :
    Sim k t f ({ f with size := sz, cur := cu, error := er }.setPc t p') c := by
  refine ⟨c, ?_, .inr ⟨rfl, ?_⟩⟩
  · have := h.write hpc hp hp' hsz hcu her hus hl hq
    rwa [show ({ c with size := c.size, cur := c.cur, error := c.error } : CS N) = c from rfl, setPc_self (h.cpc t)] at this
  · refine wgt_lt (t := t) (fun u hu => ?_) ?_
    · simp [FS.setPc, FS.setThr, hu]
    · simp only [FS.setPc, FS.setThr, Function.update_self, hpc]
      omega

theorem setFin (h : FRel k f c) {t : Fin N} (hh : (f.thr t).pc.held = true) (hn : ∀ u, (f.thr u).pc ≠ .finQuit) {x : Bool} :
    FRel k { f with finalizing := x } { c with finalizing := x } :=
  { h with
    fin := fun _ => rfl
    loc := fun u => by
      have h1 := h.loc u
      have h2 := hn u
      show (f.thr u).Loc _ _ x _ _ _ _
      unfold FThr.Loc at h1 ⊢
      cases hp : (f.thr u).pc <;> rw [hp] at h1 h2 <;> simp_all
    uloc := by
      have h1 := h.uloc
      have h2 := h.usrFree hh
      show f.usr.Loc _ x _ _
      cases hx : f.usr <;> rw [hx] at h1 h2 <;> simp_all [UPc.Loc, UPc.held] }

theorem sim (h : FRel k f c) (hk : EpochSetting k) (hc : CReach k c) {t : Fin N} {f' : FS N} (hs : FWork k t f f') : Sim k t f f' c := by
  have hcp := h.cpc t
  cases hs with
  | topQuit hp hq =>
    cases hdq : f.usr.dquit with
    | true =>
      exact h.stayPc hp (keep hp rfl) ⟨rfl, rfl, rfl, rfl, by decide⟩ trivial (by simp [FThr.coPc, hp, hdq])
    | false =>
      refine h.movePc hp (keep hp rfl) ⟨rfl, rfl, rfl, rfl⟩ (h.wtOut t (by rw [hp]; rfl)) trivial (q := .done) (.topQuit ?_ ?_)
        (by simp [FThr.coPc, hdq])
      · rw [hcp]; simp [FThr.coPc, hp]
      · rw [h.quit, hq, hdq]; rfl
  | topGo hp hq =>
    refine h.movePc hp (keep hp rfl) ⟨rfl, rfl, rfl, rfl⟩ (h.wtOut t (by rw [hp]; rfl)) trivial (.topGo ?_ ?_) rfl
    · rw [hcp]; simp [FThr.coPc, hp]
    · rw [h.quit, hq]; rfl
  | trigLock hp ho =>
    rcases hp with hp | hp <;>
    exact h.stayPc hp (acquire ho rfl) ⟨rfl, rfl, rfl, rfl, by decide⟩ trivial (by simp [FThr.coPc, hp])
  | trigNe hp hne => exact h.stayPc hp (keep hp rfl) ⟨rfl, rfl, rfl, rfl, by decide⟩ (.inl hne) (by simp [FThr.coPc, hp])
  | trigEq hp he => exact h.stayPc hp (keep hp rfl) ⟨rfl, rfl, rfl, rfl, by decide⟩ he (by simp [FThr.coPc, hp])
  | trigQuit hp hq => exact h.stayPc hp (keep hp rfl) ⟨rfl, rfl, rfl, rfl, by decide⟩ (.inr hq) (by simp [FThr.coPc, hp])
  | trigWait hp hq =>
    have hh : (f.thr t).pc.held = true := by rw [hp]; rfl
    have hl := h.loc t
    simp only [FThr.Loc, hp] at hl
    refine h.movePc hp (release hp rfl rfl) ⟨rfl, rfl, rfl, rfl⟩ (h.wtOut t (by rw [hp]; rfl)) trivial (q := .trigSleep) (.trigWait ?_ ⟨?_, ?_⟩) ?_
    · rw [hcp]; simp [FThr.coPc, hp]
    · rw [h.trig, h.thr t]; exact hl
    · rw [h.quit_eq hh, hq]
    · simp [FThr.coPc, UPc.pend_held (h.usrFree hh)]
  | trigRead hp =>
    have hh : (f.thr t).pc.held = true := by rw [hp]; rfl
    have hl := h.loc t
    simp only [FThr.Loc, hp] at hl
    refine ⟨_, ?_, .inl (.trigGo ?_ ?_)⟩
    · have := h.goPc (t := t) (th := { f.thr t with pc := .trigUnlock, lastTrig := f.trig }) (o := f.owner) (.inl ⟨rfl, by rw [hp]; rfl⟩)
        (by rw [hp]; rfl) (by rw [hp]; rfl) (by rw [hp]; rfl) (fun _ => h.wtOut t (by rw [hp]; rfl)) trivial
      rw [h.thr t, h.trig]
      exact this
    · rw [hcp]; simp [FThr.coPc, hp]
    · rw [h.trig, h.thr t, h.quit_eq hh]; exact hl
  | trigUnlock hp => exact h.stayPc hp (release hp rfl rfl) ⟨rfl, rfl, rfl, rfl, by decide⟩ trivial (by simp [FThr.coPc, hp])
  | enter hp =>
    have hpc : (c.thr t).pc = .enter := by rw [hcp]; simp [FThr.coPc, hp]
    obtain ⟨b1, b2⟩ := h.busy hk hc (t := t) (by rw [hpc]; rfl)
    refine ⟨_, ?_, .inl (.enter hpc)⟩
    have := h.goPc (t := t) (th := { f.thr t with pc := .fetch, lastOff := 0, valid := f.size - f.size % blockSize }) (o := f.owner)
      (.inl ⟨rfl, by rw [hp]; rfl⟩) (by rw [hp]; rfl) (by rw [hp]; rfl) (by rw [hp]; rfl) (fun _ => h.wtOut t (by rw [hp]; rfl)) trivial
    rw [h.thr t, h.size b1 b2]
    exact this
  | fetch hp =>
    have hpc : (c.thr t).pc = .fetch := by rw [hcp]; simp [FThr.coPc, hp]
    obtain ⟨b1, b2⟩ := h.busy hk hc (t := t) (by rw [hpc]; rfl)
    have hsz := h.size b1 b2
    have hcu := h.cur fun u => not_dcur (b2 u)
    refine ⟨_, ?_, .inl (.fetch hpc)⟩
    have := (h.setCur b2 (f.cur + blockSize)).goPc (t := t) (th := { f.thr t with pc := .count, off := f.cur }) (o := f.owner)
      (.inl ⟨rfl, by rw [hp]; rfl⟩) (by rw [hp]; rfl) (by rw [hp]; rfl) (by rw [hp]; rfl) (fun _ => h.wtOut t (by rw [hp]; rfl)) trivial
    have e : numEpochs k c.cur c.size (c.thr t).lastOff = numEpochs k f.cur f.size (f.thr t).lastOff := by rw [hsz, hcu, h.thr t]; rfl
    rw [e, h.thr t, hcu]
    exact this
  | count hp => exact h.stayPc hp (keep hp rfl) ⟨rfl, rfl, rfl, rfl, Nat.zero_lt_one⟩ trivial (by simp [FThr.coPc, hp])
  | epochArrive hp =>
    rename_i r
    have hpc : (c.thr t).pc = .epoch (r + 1) := by rw [hcp]; simp [FThr.coPc, hp]
    refine ⟨_, ?_, .inl (.epochArrive hpc)⟩
    have := h.goBar (t := t) (th := { f.thr t with pc := .epochIn r }) (o := f.owner) (b := f.bar.arrive t) (b' := c.bar.arrive t)
      (.inl ⟨rfl, by rw [hp]; rfl⟩) (by rw [hp]; rfl) (by rw [hp]; rfl) (by rw [hp]; rfl) (h.bar.arrive (h.wtOut t (by rw [hp]; rfl)))
      (fun u hu => arrive_out hu) (fun hx => by cases hx) trivial
    unfold CS.setPc CS.setThr
    rw [h.thr t]
    exact this
  | epochOut hp hw =>
    rename_i r
    refine h.movePc hp (keep hp rfl) ⟨rfl, rfl, rfl, rfl⟩ hw trivial (.epochOut (r := r) ?_ (h.bar.out hw)) rfl
    rw [hcp]; simp [FThr.coPc, hp]
  | recheck hw =>
    rename_i g
    have hne : ∀ u, u ≠ t → (f.bar.recheck t g).wt u = f.bar.wt u := by
      intro u hu
      unfold Bar.recheck
      split <;> simp [hu]
    have ho : ∀ u, f.bar.wt u = .out → (f.bar.recheck t g).wt u = .out := by
      intro u hu
      have : u ≠ t := by rintro rfl; rw [hw] at hu; cases hu
      rw [hne u this, hu]
    rcases h.bar.recheck hw with ⟨h1, h2⟩ | h2
    · exact ⟨_, h.setBar h2 ho, .inl (.recheck h1)⟩
    · refine ⟨c, h.setBar h2 ho, .inr ⟨rfl, wgt_lt (t := t) (fun u hu => ⟨rfl, hne u hu⟩) ?_⟩⟩
      show _ + ((f.bar.recheck t g).wt t).rnk < _ + (f.bar.wt t).rnk
      rw [hw]
      unfold Bar.recheck
      split <;> simp [BWait.rnk]
  | epochEnd hp =>
    have hpc : (c.thr t).pc = .epoch 0 := by rw [hcp]; simp [FThr.coPc, hp]
    refine ⟨_, ?_, .inl (.epochEnd hpc)⟩
    have := h.goPc (t := t) (th := { f.thr t with
        pc := if (f.thr t).valid ≤ (f.thr t).off then .finLock else .handle, lastOff := (f.thr t).off }) (o := f.owner)
      (.inl ⟨rfl, by rw [hp]; split <;> rfl⟩) (by rw [hp]; split <;> rfl) (by rw [hp]; split <;> rfl) (by rw [hp]; split <;> rfl)
      (fun _ => h.wtOut t (by rw [hp]; rfl)) (by split <;> trivial)
    rw [h.thr t]
    convert this using 2
    by_cases hv : (f.thr t).valid ≤ (f.thr t).off <;> simp [FThr.co, FThr.coPc, hv]
  | handleOk hp =>
    refine h.movePc hp (keep hp rfl) ⟨rfl, rfl, rfl, rfl⟩ (h.wtOut t (by rw [hp]; rfl)) trivial (.handleOk ?_) rfl
    rw [hcp]; simp [FThr.coPc, hp]
  | handleFail hp =>
    refine h.movePc hp (keep hp rfl) ⟨rfl, rfl, rfl, rfl⟩ (h.wtOut t (by rw [hp]; rfl)) trivial (.handleFail ?_) rfl
    rw [hcp]; simp [FThr.coPc, hp]
  | failLock hp ho => exact h.stayPc hp (acquire ho rfl) ⟨rfl, rfl, rfl, rfl, by decide⟩ trivial (by simp [FThr.coPc, hp])
  | failRead hp => exact h.stayPc hp (keep hp rfl) ⟨rfl, rfl, rfl, rfl, by decide⟩ trivial (by simp [FThr.coPc, hp])
  | failErr hp =>
    have hh : (f.thr t).pc.held = true := by rw [hp]; rfl
    exact h.writeStay (sz := f.size) (cu := f.cur) (er := true) hp rfl rfl (by decide) (fun _ => h.size_held hh (by rw [hp]; rfl))
      (fun _ => h.cur_held hh (by rw [hp]; rfl)) (fun hx => by cases hx) (.inl rfl) rfl (by simp [FThr.coPc, hp])
  | failCur hp =>
    have hh : (f.thr t).pc.held = true := by rw [hp]; rfl
    have hpc : (c.thr t).pc = .failed := by rw [hcp]; simp [FThr.coPc, hp]
    have hl := h.loc t
    simp only [FThr.Loc, hp] at hl
    refine ⟨_, ?_, .inl (.failed hpc)⟩
    exact h.write (p' := .failUnlock) (sz := f.size) (cu := bigOffset) (er := f.error) (sz' := c.size) hp rfl rfl (fun _ => h.size_held hh (by rw [hp]; rfl))
      (fun _ => rfl) (fun _ => hl.symm) (.inl rfl) trivial rfl
  | failUnlock hp => exact h.stayPc hp (release hp rfl rfl) ⟨rfl, rfl, rfl, rfl, Nat.zero_lt_one⟩ trivial (by simp [FThr.coPc, hp])
  | deliver hp =>
    rename_i ok
    have hpc : (c.thr t).pc = .deliver ok := by rw [hcp]; simp [FThr.coPc, hp]
    refine ⟨_, ?_, .inl (.deliver hpc)⟩
    have := h.go (t := t) (th := { f.thr t with pc := .inCall ok }) (o := f.owner) (b := f.bar) (b' := c.bar) (l := (if ok then Ev.block (f.thr t).off else Ev.failBlock (f.thr t).off) :: f.log)
      (.inl ⟨rfl, by rw [hp]; rfl⟩) (by rw [hp]; rfl) (by rw [hp]; rfl) (by rw [hp]; rfl) h.bar
      (fun _ _ => id) (fun _ => h.wtOut t (by rw [hp]; rfl)) trivial (.inr ⟨_, rfl, by cases ok <;> rfl, by cases ok <;> simp⟩)
    unfold CS.setPc CS.setThr
    rw [h.thr t, h.log]
    exact this
  | callDone hp =>
    rename_i ok
    have hpc : (c.thr t).pc = .inCall ok := by rw [hcp]; simp [FThr.coPc, hp]
    refine ⟨_, ?_, .inl (.callDone hpc)⟩
    have := h.go (t := t) (th := { f.thr t with pc := .fetch }) (o := f.owner) (b := f.bar) (b' := c.bar) (l := .returned (f.thr t).off :: f.log)
      (.inl ⟨rfl, by rw [hp]; rfl⟩) (by rw [hp]; rfl) (by rw [hp]; rfl) (by rw [hp]; rfl) h.bar
      (fun _ _ => id) (fun _ => h.wtOut t (by rw [hp]; rfl)) trivial (.inr ⟨_, rfl, by cases ok <;> rfl, by cases ok <;> simp⟩)
    unfold CS.setPc CS.setThr
    rw [h.thr t, h.log]
    exact this
  | finLock hp ho =>
    rcases hp with hp | hp <;>
    exact h.stayPc hp (acquire ho rfl) ⟨rfl, rfl, rfl, rfl, by decide⟩ trivial (by simp [FThr.coPc, hp])
  | finTrue hp hf =>
    have hh : (f.thr t).pc.held = true := by rw [hp]; rfl
    refine h.movePc hp (keep hp rfl) ⟨rfl, rfl, rfl, rfl⟩ (h.wtOut t (by rw [hp]; rfl)) trivial (.finGo ?_ (.inl ?_)) rfl
    · rw [hcp]; simp [FThr.coPc, hp]
    · rw [h.fin (UPc.dfin_held (h.usrFree hh)), hf]
  | finFalse hp hf => exact h.stayPc hp (keep hp rfl) ⟨rfl, rfl, rfl, rfl, by decide⟩ hf (by simp [FThr.coPc, hp])
  | finQuit hp hq =>
    have hh : (f.thr t).pc.held = true := by rw [hp]; rfl
    refine h.movePc hp (keep hp rfl) ⟨rfl, rfl, rfl, rfl⟩ (h.wtOut t (by rw [hp]; rfl)) trivial (.finGo ?_ (.inr ?_)) rfl
    · rw [hcp]; simp [FThr.coPc, hp]
    · rw [h.quit_eq hh, hq]
  | finWait hp hq =>
    have hh : (f.thr t).pc.held = true := by rw [hp]; rfl
    have hl := h.loc t
    simp only [FThr.Loc, hp] at hl
    refine h.movePc hp (release hp rfl rfl) ⟨rfl, rfl, rfl, rfl⟩ (h.wtOut t (by rw [hp]; rfl)) trivial (q := .finSleep) (.finWait ?_ ⟨?_, ?_⟩) ?_
    · rw [hcp]; simp [FThr.coPc, hp]
    · rw [h.fin (UPc.dfin_held (h.usrFree hh)), hl]
    · rw [h.quit_eq hh, hq]
    · simp [FThr.coPc, UPc.pend_held (h.usrFree hh)]
  | finUnlock hp => exact h.stayPc hp (release hp rfl rfl) ⟨rfl, rfl, rfl, rfl, Nat.zero_lt_one⟩ trivial (by simp [FThr.coPc, hp])
  | finArrive hp =>
    have hpc : (c.thr t).pc = .finArr := by rw [hcp]; simp [FThr.coPc, hp]
    refine ⟨_, ?_, .inl (.finArrive hpc)⟩
    have := h.goBar (t := t) (th := { f.thr t with pc := .finIn }) (o := f.owner) (b := f.bar.arrive t) (b' := c.bar.arrive t)
      (.inl ⟨rfl, by rw [hp]; rfl⟩) (by rw [hp]; rfl) (by rw [hp]; rfl) (by rw [hp]; rfl) (h.bar.arrive (h.wtOut t (by rw [hp]; rfl)))
      (fun u hu => arrive_out hu) (fun hx => by cases hx) trivial
    unfold CS.setPc CS.setThr
    rw [h.thr t]
    exact this
  | finOut hp hw =>
    have hpc : (c.thr t).pc = .finIn := by rw [hcp]; simp [FThr.coPc, hp]
    have hwk := CWork.finOut (k := k) hpc (h.bar.out hw)
    split
    · rename_i h0
      rw [if_pos h0] at hwk
      exact h.movePc hp (keep hp rfl) ⟨rfl, rfl, rfl, rfl⟩ hw trivial hwk rfl
    · rename_i h0
      rw [if_neg h0] at hwk
      exact h.movePc hp (keep hp rfl) ⟨rfl, rfl, rfl, rfl⟩ hw trivial hwk rfl
  | rLock hp ho => exact h.stayPc hp (acquire ho rfl) ⟨rfl, rfl, rfl, rfl, by decide⟩ trivial (by simp [FThr.coPc, hp])
  | rQuit hp =>
    have hh : (f.thr t).pc.held = true := by rw [hp]; rfl
    split
    · rename_i hq
      refine h.movePc hp (keep hp rfl) ⟨rfl, rfl, rfl, rfl⟩ (h.wtOut t (by rw [hp]; rfl)) trivial (.resetQuit ?_ ?_) rfl
      · rw [hcp]; simp [FThr.coPc, hp]
      · rw [h.quit_eq hh, hq]
    · rename_i hq
      exact h.stayPc hp (keep hp rfl) ⟨rfl, rfl, rfl, rfl, by decide⟩ (by simpa [FThr.Loc] using hq) (by simp [FThr.coPc, hp])
  | rSize hp =>
    have hh : (f.thr t).pc.held = true := by rw [hp]; rfl
    have hpc : (c.thr t).pc = .reset := by rw [hcp]; simp [FThr.coPc, hp]
    have hl := h.loc t
    simp only [FThr.Loc, hp] at hl
    exact h.writeStay (sz := 0) (cu := f.cur) (er := f.error) hp rfl rfl (by decide) (fun hx => by cases hx)
      (fun _ => h.cur_held hh (by rw [hp]; rfl)) (fun _ => h.err_held hh (by rw [hp]; rfl))
      (.inr (h.reset_alone hk hc hpc (by rw [h.quit_eq hh, hl]))) ⟨hl, rfl⟩ (by simp [FThr.coPc, hp])
  | rCur hp =>
    have hh : (f.thr t).pc.held = true := by rw [hp]; rfl
    have hl := h.loc t
    simp only [FThr.Loc, hp] at hl
    exact h.writeStay (sz := f.size) (cu := 0) (er := f.error) hp rfl rfl (by decide) (fun hx => by cases hx)
      (fun hx => by cases hx) (fun _ => h.err_held hh (by rw [hp]; rfl)) (.inl rfl) ⟨hl.1, hl.2, rfl⟩ (by simp [FThr.coPc, hp])
  | rErr hp =>
    have hh : (f.thr t).pc.held = true := by rw [hp]; rfl
    have hl := h.loc t
    simp only [FThr.Loc, hp] at hl
    exact h.writeStay (sz := f.size) (cu := f.cur) (er := f.error) hp rfl rfl (by simp [FPc.rank]) (fun hx => by cases hx)
      (fun hx => by cases hx) (fun _ => h.err_held hh (by rw [hp]; rfl)) (.inl rfl)
      ⟨hl.1, hl.2.1, hl.2.2, (h.err_held hh (by rw [hp]; rfl)).symm⟩ (by simp [FThr.coPc, hp])
  | rErrSet hp =>
    have hl := h.loc t
    simp only [FThr.Loc, hp] at hl
    exact h.writeStay (sz := f.size) (cu := f.cur) (er := false) hp rfl rfl (by simp [FPc.rank]) (fun hx => by cases hx)
      (fun hx => by cases hx) (fun hx => by cases hx) (.inl rfl) ⟨hl.1, hl.2.1, hl.2.2.1, hl.2.2.2, rfl⟩ (by simp [FThr.coPc, hp])
  | rFin hp =>
    rename_i e
    have hh : (f.thr t).pc.held = true := by rw [hp]; rfl
    have hpc : (c.thr t).pc = .reset := by rw [hcp]; simp [FThr.coPc, hp]
    have hl := h.loc t
    simp only [FThr.Loc, hp] at hl
    obtain ⟨l1, l2, l3, l4, l5⟩ := hl
    refine ⟨_, ?_, .inl (.reset hpc (by rw [h.quit_eq hh, l1]))⟩
    have := h.write (p' := .rUnlock e) (sz := f.size) (cu := f.cur) (er := f.error) (sz' := 0) (cu' := 0) (er' := false) hp rfl rfl
      (fun _ _ => l2.symm) (fun _ => l3.symm) (fun _ => l5.symm) (.inl rfl) trivial rfl
    have h2 := this.setFin (t := t) (x := false) (by simp [FS.setPc, FS.setThr, FPc.held]) (by
      intro u
      simp only [FS.setPc, FS.setThr]
      by_cases hu : u = t
      · subst hu; simp
      · simp only [Function.update_of_ne hu]
        intro hx
        have := h.alone hh hu
        rw [hx] at this; cases this)
    rw [← l4]
    exact h2
  | rUnlock hp => exact h.stayPc hp (release hp rfl rfl) ⟨rfl, rfl, rfl, rfl, Nat.zero_lt_one⟩ trivial (by simp [FThr.coPc, hp])
  | rUnlockQuit hp => exact h.stayPc hp (release hp rfl rfl) ⟨rfl, rfl, rfl, rfl, by decide⟩ trivial (by simp [FThr.coPc, hp])
  | callback hp =>
    rename_i ok
    have hpc : (c.thr t).pc = .callback ok := by rw [hcp]; simp [FThr.coPc, hp]
    refine ⟨_, ?_, .inl (.callback hpc)⟩
    have := h.go (t := t) (th := { f.thr t with pc := .inCallback }) (o := f.owner) (b := f.bar) (b' := c.bar) (l := .finalized ok :: f.log)
      (.inl ⟨rfl, by rw [hp]; rfl⟩) (by rw [hp]; rfl) (by rw [hp]; rfl) (by rw [hp]; rfl) h.bar
      (fun _ _ => id) (fun _ => h.wtOut t (by rw [hp]; rfl)) trivial (.inr ⟨_, rfl, by cases ok <;> rfl, by cases ok <;> simp⟩)
    unfold CS.setPc CS.setThr
    rw [h.thr t, h.log]
    exact this
  | callbackDone hp =>
    refine h.movePc hp (keep hp rfl) ⟨rfl, rfl, rfl, rfl⟩ (h.wtOut t (by rw [hp]; rfl)) trivial (.callbackDone ?_) rfl
    rw [hcp]; simp [FThr.coPc, hp]

/-! ## The user -/

theorem co_wake (th : FThr) (dq : Bool) (sz : Nat) : (th.co k false dq sz).wake = th.co k true dq sz := by
  unfold FThr.co FThr.coPc CThr.wake
  cases hp : th.pc <;> first | rfl | (cases dq <;> rfl)

theorem wake_co (th : FThr) (dq : Bool) (sz : Nat) : th.wake.co k false dq sz = th.co k true dq sz := by
  unfold FThr.co FThr.coPc FThr.wake
  cases hp : th.pc <;> simp [hp]

theorem wake_held (th : FThr) : th.wake.pc.held = th.pc.held := by unfold FThr.wake; cases hp : th.pc <;> simp [hp] <;> rfl
theorem wake_dsize (th : FThr) : th.wake.pc.dsize = th.pc.dsize := by unfold FThr.wake; cases hp : th.pc <;> simp [hp] <;> rfl
theorem wake_dcur (th : FThr) : th.wake.pc.dcur = th.pc.dcur := by unfold FThr.wake; cases hp : th.pc <;> simp [hp] <;> rfl
theorem wake_derr (th : FThr) : th.wake.pc.derr = th.pc.derr := by unfold FThr.wake; cases hp : th.pc <;> simp [hp] <;> rfl
theorem wake_inBar (th : FThr) : th.wake.pc.inBar = th.pc.inBar := by unfold FThr.wake; cases hp : th.pc <;> simp [hp] <;> rfl

/-- The user goes on, changing nothing. -/
theorem setUsr (h : FRel k f c) {u : UPc} {o : Option (Option (Fin N))}
    (ho : (o = f.owner ∧ u.held = f.usr.held) ∨ (f.owner = none ∧ o = some none ∧ u.held = true) ∨ (f.usr.held = true ∧ o = none ∧ u.held = false))
    (hd : u.dsize = f.usr.dsize ∧ u.dfin = f.usr.dfin ∧ u.dquit = f.usr.dquit ∧ u.dintr = f.usr.dintr ∧ u.pend = f.usr.pend)
    (hl : u.Loc f.quit f.finalizing f.size f.log) : FRel k { f with owner := o, usr := u } c := by
  obtain ⟨d1, d2, d3, d4, d5⟩ := hd
  refine ⟨?_, ?_, h.trig, ?_, h.cur, h.err, ?_, ?_, ?_, h.wtOut, ?_, h.loc, hl, h.log⟩
  · intro t
    rcases ho with ⟨rfl, _⟩ | ⟨h1, rfl, _⟩ | ⟨h1, rfl, _⟩
    · exact h.own t
    · show (f.thr t).pc.held = true ↔ _
      rw [h.thrNone h1 t]; simp
    · show (f.thr t).pc.held = true ↔ _
      rw [h.thrFree h1 t]; simp
  · rcases ho with ⟨rfl, h2⟩ | ⟨h1, rfl, h2⟩ | ⟨h1, rfl, h2⟩
    · show u.held = true ↔ _
      rw [h2]; exact h.uown
    · simp [h2]
    · simp [h2]
  · show u.dsize = false → _
    rw [d1]; exact h.size
  · show u.dfin = false → _
    rw [d2]; exact h.fin
  · show _ = (f.quit && !u.dquit)
    rw [d3]; exact h.quit
  · show BRel _ _ u.dintr
    rw [d4]; exact h.bar
  · intro t
    show _ = FThr.co k u.pend u.dquit f.size (f.thr t)
    rw [d5, d3]; exact h.thr t

/-- `_trigger_changed.notify_all()` -/
theorem notify (h : FRel k f c) {u : UPc} (hu : f.usr.pend = true) (ho : u.held = true) (hp : u.pend = false)
    (hd : u.dsize = f.usr.dsize ∧ u.dfin = f.usr.dfin ∧ u.dquit = f.usr.dquit ∧ u.dintr = f.usr.dintr)
    (hl : u.Loc f.quit f.finalizing f.size f.log) : FRel k { f with thr := fun t => (f.thr t).wake, usr := u } c := by
  obtain ⟨d1, d2, d3, d4⟩ := hd
  have hh : f.usr.held = true := by
    by_contra hx
    rw [UPc.pend_held (by simpa using hx)] at hu; cases hu
  refine ⟨?_, ?_, h.trig, ?_, ?_, ?_, ?_, ?_, ?_, ?_, ?_, ?_, hl, h.log⟩
  · intro t
    show (f.thr t).wake.pc.held = true ↔ _
    rw [wake_held]; exact h.own t
  · show u.held = true ↔ _
    exact ⟨fun _ => h.uown.1 hh, fun _ => ho⟩
  · show u.dsize = false → (∀ t, (f.thr t).wake.pc.dsize = false) → _
    simp only [wake_dsize]; rw [d1]; exact h.size
  · show (∀ t, (f.thr t).wake.pc.dcur = false) → _
    simp only [wake_dcur]; exact h.cur
  · show (∀ t, (f.thr t).wake.pc.derr = false) → _
    simp only [wake_derr]; exact h.err
  · show u.dfin = false → _
    rw [d2]; exact h.fin
  · show _ = (f.quit && !u.dquit)
    rw [d3]; exact h.quit
  · show BRel _ _ u.dintr
    rw [d4]; exact h.bar
  · intro t
    show (f.thr t).wake.pc.inBar = false → _
    rw [wake_inBar]; exact h.wtOut t
  · intro t
    show _ = FThr.co k u.pend u.dquit f.size (f.thr t).wake
    rw [hp, wake_co, d3, ← hu]; exact h.thr t
  · intro t
    show (f.thr t).wake.Loc _ _ _ _ _ _ _
    exact FThr.loc_free (by rw [wake_held]; exact h.thrFree hh t)

/-- Threads that find `_quit` set -/
theorem quitAll {c : CS N} (hc : CReach k c) (hq : c.quit = true) (L : List (Fin N)) (hL : ∀ t ∈ L, (c.thr t).pc = .top) :
    CReach k { c with thr := fun t => if t ∈ L then { c.thr t with pc := .done } else c.thr t } := by
  induction L with
  | nil => simpa using hc
  | cons a L ih =>
    have h1 := ih fun t ht => hL t (List.mem_cons_of_mem _ ht)
    by_cases ha : a ∈ L
    · convert h1 using 2
      funext t
      by_cases ht : t = a
      · subst ht; simp [ha]
      · simp [ht]
    · have h2 := CReach.work h1 (.topQuit (t := a) (by simp [ha, hL a List.mem_cons_self]) hq)
      convert h2 using 1
      unfold CS.setPc CS.setThr
      congr 1
      funext t
      by_cases ht : t = a
      · subst ht; simp [ha]
      · simp [ht]

theorem no_done (hk : EpochSetting k) (hc : CReach k c) (hq : c.quit = false) (t : Fin N) : (c.thr t).pc ≠ .done := by
  intro hp
  obtain ⟨arr, G, base, next, run, hi⟩ := creach_inv hk hc
  have hT := (hi.n hq).thr t
  simp only [TInv, hp] at hT

theorem simUser (h : FRel k f c) (hk : EpochSetting k) (hc : CReach k c) {f' : FS N} (hs : FUser f f') : ∃ c', CReach k c' ∧ FRel k f' c' := by
  have hl := h.uloc
  cases hs with
  | stSize hu =>
    rename_i n
    rw [hu] at hl
    obtain ⟨l1, l2, l3⟩ := hl
    have hidle := fun t => creach_start_idle hk hc (by rw [h.quit, l1]; rfl) (by rw [h.log]; exact l2) t
    refine ⟨c, hc, ⟨h.own, ?_, h.trig, ?_, h.cur, h.err, ?_, ?_, ?_, h.wtOut, ?_, ?_, ⟨l1, l2, l3, rfl⟩, h.log⟩⟩
    · have := h.uown; rw [hu] at this; exact this
    · intro hx; cases hx
    · intro _; exact h.fin (by rw [hu]; rfl)
    · have := h.quit; rw [hu] at this; exact this
    · have := h.bar; rw [hu] at this; exact this
    · intro t
      have h1 := h.thr t
      have h2 := (hidle t).1
      rw [hu] at h1
      rw [h1] at h2
      show c.thr t = FThr.co k false false n (f.thr t)
      rw [h1]
      unfold FThr.co FThr.coPc at h2 ⊢
      cases hp : (f.thr t).pc <;> rw [hp] at h2 <;> first | rfl | cases h2
    · intro t
      have h2 := (hidle t).2
      rw [h.cpc t] at h2
      have h1 := h.loc t
      show FThr.Loc _ _ _ _ _ n _ _
      unfold FThr.coPc at h2
      unfold FThr.Loc at h1 ⊢
      cases hp : (f.thr t).pc <;> rw [hp] at h1 h2 <;> first | exact h1 | exact absurd rfl h2
  | stLock hu ho =>
    rw [hu] at hl
    exact ⟨c, hc, h.setUsr (.inr (.inl ⟨ho, rfl, rfl⟩)) (by rw [hu]; exact ⟨rfl, rfl, rfl, rfl, rfl⟩) hl⟩
  | stTrig hu =>
    rename_i n
    rw [hu] at hl
    obtain ⟨l1, l2, l3, l4⟩ := hl
    have hq : c.quit = false := by rw [h.quit, l1]; rfl
    have hh : f.usr.held = true := by rw [hu]; rfl
    refine ⟨_, CReach.user hc (.start (size := n) hq (by rw [h.log]; exact l2) l3), ⟨h.own, ?_, ?_, ?_, h.cur, h.err, ?_, ?_, ?_, h.wtOut, ?_, ?_, l1, ?_⟩⟩
    · have := h.uown; rw [hu] at this; exact this
    · show c.trig + 1 = f.trig + 1; rw [h.trig]
    · intro _ _; exact l4.symm
    · intro _; exact h.fin (by rw [hu]; rfl)
    · have := h.quit; rw [hu] at this; exact this
    · have := h.bar; rw [hu] at this; exact this
    · intro t
      have h1 := h.thr t
      rw [hu] at h1
      show (c.thr t).wake = FThr.co k true false f.size (f.thr t)
      rw [h1]; exact co_wake _ _ _
    · exact fun t => FThr.loc_free (h.thrFree hh t)
    · show _ :: c.log = _ :: f.log; rw [h.log]
  | stNotify hu =>
    rw [hu] at hl
    exact ⟨c, hc, h.notify (by rw [hu]; rfl) rfl rfl (by rw [hu]; exact ⟨rfl, rfl, rfl, rfl⟩) hl⟩
  | fnLock hu ho =>
    rw [hu] at hl
    exact ⟨c, hc, h.setUsr (.inr (.inl ⟨ho, rfl, rfl⟩)) (by rw [hu]; exact ⟨rfl, rfl, rfl, rfl, rfl⟩) hl⟩
  | fnFlag hu =>
    rw [hu] at hl
    have hh : f.usr.held = true := by rw [hu]; rfl
    refine ⟨c, hc, ⟨h.own, ?_, h.trig, ?_, h.cur, h.err, ?_, ?_, ?_, h.wtOut, ?_, ?_, ⟨hl.1, hl.2, rfl⟩, h.log⟩⟩
    · have := h.uown; rw [hu] at this; exact this
    · intro _; exact h.size (by rw [hu]; rfl)
    · intro hx; cases hx
    · have := h.quit; rw [hu] at this; exact this
    · have := h.bar; rw [hu] at this; exact this
    · have := h.thr; rw [hu] at this; exact this
    · exact fun t => FThr.loc_free (h.thrFree hh t)
  | fnCur hu =>
    rename_i cn
    rw [hu] at hl
    obtain ⟨l1, l2, l3⟩ := hl
    have hq : c.quit = false := by rw [h.quit, l1]; rfl
    have hh : f.usr.held = true := by rw [hu]; rfl
    have hcu := h.cur fun t => not_dcur (not_dsize (h.thrFree hh t))
    refine ⟨_, CReach.user hc (.finalize (cancel := cn) hq (by rw [h.log]; exact l2)), ⟨h.own, ?_, h.trig, ?_, ?_, h.err, ?_, ?_, ?_, h.wtOut, ?_, ?_, l1, ?_⟩⟩
    · have := h.uown; rw [hu] at this; exact this
    · intro _; exact h.size (by rw [hu]; rfl)
    · intro _
      show (if cn = true then bigOffset else c.cur) = if cn = true then bigOffset else f.cur
      rw [hcu]
    · intro _; exact l3.symm
    · have := h.quit; rw [hu] at this; exact this
    · have := h.bar; rw [hu] at this; exact this
    · intro t
      have h1 := h.thr t
      rw [hu] at h1
      show (c.thr t).wake = FThr.co k true false f.size (f.thr t)
      rw [h1]; exact co_wake _ _ _
    · exact fun t => FThr.loc_free (h.thrFree hh t)
    · show _ :: c.log = _ :: f.log; rw [h.log]
  | fnNotify hu =>
    rw [hu] at hl
    exact ⟨c, hc, h.notify (by rw [hu]; rfl) rfl rfl (by rw [hu]; exact ⟨rfl, rfl, rfl, rfl⟩) hl⟩
  | unlock hu =>
    rw [hu] at hl
    exact ⟨c, hc, h.setUsr (.inr (.inr ⟨by rw [hu]; rfl, rfl, rfl⟩)) (by rw [hu]; exact ⟨rfl, rfl, rfl, rfl, rfl⟩) hl⟩
  | dsLock hu ho =>
    rw [hu] at hl
    exact ⟨c, hc, h.setUsr (.inr (.inl ⟨ho, rfl, rfl⟩)) (by rw [hu]; exact ⟨rfl, rfl, rfl, rfl, rfl⟩) hl⟩
  | dsQuit hu =>
    rw [hu] at hl
    have hh : f.usr.held = true := by rw [hu]; rfl
    have hl : f.quit = false := hl
    have hq : c.quit = false := by rw [h.quit, hl]; rfl
    refine ⟨c, hc, ⟨h.own, ?_, h.trig, ?_, h.cur, h.err, ?_, ?_, ?_, h.wtOut, ?_, ?_, rfl, h.log⟩⟩
    · have := h.uown; rw [hu] at this; exact this
    · intro _; exact h.size (by rw [hu]; rfl)
    · intro _; exact h.fin (by rw [hu]; rfl)
    · rw [hq]; rfl
    · have := h.bar; rw [hu] at this; exact this
    · intro t
      have h1 := h.thr t
      have h2 := no_done hk hc hq t
      rw [hu] at h1
      rw [h1] at h2
      show c.thr t = FThr.co k false true f.size (f.thr t)
      rw [h1]
      unfold FThr.co FThr.coPc at h2 ⊢
      cases hp : (f.thr t).pc <;> rw [hp] at h2 <;> first | rfl | exact absurd rfl h2
    · exact fun t => FThr.loc_free (h.thrFree hh t)
  | dsCur hu =>
    rw [hu] at hl
    have hh : f.usr.held = true := by rw [hu]; rfl
    have hl : f.quit = true := hl
    have hq : c.quit = false := by rw [h.quit, hu]; simp [UPc.dquit]
    have hd := CReach.user hc (.destroy hq)
    have htop : ∀ t ∈ (List.finRange N).filter (fun t => (f.thr t).pc = .done),
        ((c.thr t).wake).pc = .top := by
      intro t ht
      have hp : (f.thr t).pc = .done := by simpa using ht
      have h1 := h.thr t
      rw [hu] at h1
      rw [h1]
      show (FThr.co k false true f.size (f.thr t)).wake.pc = .top
      rw [co_wake]
      simp [FThr.co, FThr.coPc, hp]
    refine ⟨_, quitAll hd rfl _ htop, ⟨h.own, ?_, h.trig, ?_, ?_, h.err, ?_, ?_, ?_, h.wtOut, ?_, ?_, hl, ?_⟩⟩
    · have := h.uown; rw [hu] at this; exact this
    · intro _; exact h.size (by rw [hu]; rfl)
    · intro _; rfl
    · intro _; exact h.fin (by rw [hu]; rfl)
    · show true = (f.quit && true); rw [hl]; rfl
    · have := h.bar; rw [hu] at this; exact this.commit
    · intro t
      have h1 := h.thr t
      rw [hu] at h1
      show (if t ∈ (List.finRange N).filter (fun t => (f.thr t).pc = .done) then { (c.thr t).wake with pc := .done } else (c.thr t).wake) =
        FThr.co k true false f.size (f.thr t)
      rw [h1]
      show (if _ then ({ (FThr.co k false true f.size (f.thr t)).wake with pc := CPc.done } : CThr) else (FThr.co k false true f.size (f.thr t)).wake) = _
      rw [co_wake]
      by_cases hp : (f.thr t).pc = .done
      · rw [if_pos (by simpa using hp)]
        simp [FThr.co, FThr.coPc, hp]
      · rw [if_neg (by simpa using hp)]
        unfold FThr.co FThr.coPc
        cases hx : (f.thr t).pc <;> first | rfl | exact absurd hx hp
    · exact fun t => FThr.loc_free (h.thrFree hh t)
    · show _ :: c.log = _ :: f.log; rw [h.log]
  | dsNotify hu =>
    rw [hu] at hl
    exact ⟨c, hc, h.notify (by rw [hu]; rfl) rfl rfl (by rw [hu]; exact ⟨rfl, rfl, rfl, rfl⟩) hl⟩
  | dsIntr hu =>
    rw [hu] at hl
    refine ⟨c, hc, ⟨h.own, ?_, h.trig, ?_, h.cur, h.err, ?_, ?_, ?_, ?_, ?_, h.loc, hl, h.log⟩⟩
    · have := h.uown; rw [hu] at this; exact this
    · intro _; exact h.size (by rw [hu]; rfl)
    · intro _; exact h.fin (by rw [hu]; rfl)
    · have := h.quit; rw [hu] at this; exact this
    · have := h.bar; rw [hu] at this; exact this.interrupt
    · intro t ht
      show (f.bar.wt t).wake = .out
      rw [h.wtOut t ht]; rfl
    · have := h.thr; rw [hu] at this; exact this
  | dsUnlock hu =>
    rw [hu] at hl
    exact ⟨c, hc, h.setUsr (.inr (.inr ⟨by rw [hu]; rfl, rfl, rfl⟩)) (by rw [hu]; exact ⟨rfl, rfl, rfl, rfl, rfl⟩) hl⟩

theorem simCall (h : FRel k f c) {f' : FS N} (hs : FCall f f') : FRel k f' c := by
  have hl := h.uloc
  cases hs with
  | start hu hm hn =>
    rw [hu] at hl
    exact h.setUsr (.inl ⟨rfl, by rw [hu]; rfl⟩) (by rw [hu]; exact ⟨rfl, rfl, rfl, rfl, rfl⟩) ⟨hl, hm, hn⟩
  | finalize hu hm =>
    rw [hu] at hl
    exact h.setUsr (.inl ⟨rfl, by rw [hu]; rfl⟩) (by rw [hu]; exact ⟨rfl, rfl, rfl, rfl, rfl⟩) ⟨hl, hm⟩
  | destroy hu =>
    rw [hu] at hl
    exact h.setUsr (.inl ⟨rfl, by rw [hu]; rfl⟩) (by rw [hu]; exact ⟨rfl, rfl, rfl, rfl, rfl⟩) hl

theorem simSpurious (h : FRel k f c) (hc : CReach k c) {f' : FS N} (hs : FSpurious f f') : ∃ c', CReach k c' ∧ FRel k f' c' := by
  cases hs with
  | cv hp =>
    rename_i t
    have hg := h.goPc (t := t) (th := (f.thr t).wake) (o := f.owner) (.inl ⟨rfl, wake_held _⟩) (wake_dsize _) (wake_dcur _) (wake_derr _)
      (by rw [wake_inBar]; exact h.wtOut t) (by rcases hp with hp | hp <;> simp [FThr.Loc, FThr.wake, hp])
    cases hpd : f.usr.pend with
    | false =>
      refine ⟨_, CReach.spurious hc (.cv (t := t) ?_), ?_⟩
      · rw [h.cpc t, hpd]; rcases hp with hp | hp <;> simp [FThr.coPc, hp]
      · rw [hpd, wake_co, ← co_wake, ← hpd, ← h.thr t] at hg
        exact hg
    | true =>
      refine ⟨c, hc, ?_⟩
      have e : (f.thr t).wake.co k f.usr.pend f.usr.dquit f.size = c.thr t := by
        rw [h.thr t, hpd]
        unfold FThr.co FThr.coPc FThr.wake
        rcases hp with hp | hp <;> simp [hp]
      rw [e, show c.setThr t (c.thr t) = c by simp [CS.setThr]] at hg
      exact hg
  | bar hw =>
    rename_i t g
    have ho : ∀ u, f.bar.wt u = .out → (f.bar.spurious t).wt u = .out := by
      intro u hu
      have : u ≠ t := by rintro rfl; rw [hw] at hu; cases hu
      unfold Bar.spurious
      simp [this, hu]
    rcases h.bar.spurious hw with ⟨h1, h2⟩ | h2
    · exact ⟨_, CReach.spurious hc (.bar h1), h.setBar h2 ho⟩
    · exact ⟨c, hc, h.setBar h2 ho⟩

theorem init : FRel k (FS.init N) (CS.init N) where
  own t := by simp [FS.init, FPc.held]
  uown := by simp [FS.init, UPc.held]
  trig := rfl
  size _ _ := rfl
  cur _ := rfl
  err _ := rfl
  fin _ := rfl
  quit := rfl
  bar := ⟨rfl, rfl, rfl, fun _ _ => rfl, fun _ _ => .inl rfl, fun hx => by cases hx⟩
  wtOut _ _ := rfl
  thr _ := rfl
  loc _ := trivial
  uloc := rfl
  log := rfl

end FRel

/-- Every state of the fine-grained stream is one of the coarse stream, but for the critical section under way. -/
theorem freach_rel {k : Option Nat} (hk : EpochSetting k) {f : FS N} (h : FReach k f) : ∃ c, CReach k c ∧ FRel k f c := by
  induction h with
  | init => exact ⟨_, .init, FRel.init⟩
  | step _ hs ih =>
    obtain ⟨c, hc, hr⟩ := ih
    rcases hs with ⟨t, hs⟩ | hs
    · obtain ⟨c', hr', h1 | ⟨rfl, _⟩⟩ := hr.sim hk hc hs
      · exact ⟨c', .work hc h1, hr'⟩
      · exact ⟨c', hc, hr'⟩
    · exact hr.simUser hk hc hs
  | call _ hs ih =>
    obtain ⟨c, hc, hr⟩ := ih
    exact ⟨c, hc, hr.simCall hs⟩
  | spurious _ hs ih =>
    obtain ⟨c, hc, hr⟩ := ih
    exact hr.simSpurious hc hs

end Lib842
