import Verif.Model.DecompFine
import Verif.Proofs.StreamRaces
import Mathlib.Algebra.BigOperators.Fin
import Mathlib.Algebra.Order.BigOperators.Group.Finset
/-!
# The fine-grained decompression stream refines the coarse one
-/

namespace Lib842
open Spec

variable {N : Nat}

/-- inside a critical section -/
def GPc.held : GPc → Bool
  | .trigCmp | .trigQuit | .trigRead | .trigUnlock | .popEmpty | .popFin | .popQuit | .brkFin | .brkEmpty | .brkQuit | .popFront | .popPop _
  | .popUnlock _ | .brkUnlock | .failRead | .failErr | .failQueue | .failUnlock | .rQuit | .rErr | .rErrSet _ | .rFin _ | .rCb _ | .rCbClear _ _
  | .rUnlock _ _ | .rUnlockQuit => true
  | _ => false

/-- `_error` has been changed, but not in the coarse model -/
def GPc.derr : GPc → Bool
  | .failQueue | .rFin _ => true
  | _ => false

def GPc.sleepy : GPc → Bool
  | .trigSleep | .popSleep => true
  | _ => false

def GUsr.held : GUsr → Bool
  | .idle | .stPtr _ | .stLock _ | .puLock _ | .fnLock _ _ | .dsLock | .dsJoin => false
  | _ => true

def GUsr.dtrig : GUsr → Bool
  | .stNotify _ => true
  | _ => false

def GUsr.dfin : GUsr → Bool
  | .fnCb _ _ | .fnQueue _ | .fnNotify _ => true
  | _ => false

def GUsr.dqueue : GUsr → Bool
  | .puNotify _ | .fnNotify _ => true
  | _ => false

def GUsr.dquit : GUsr → Bool
  | .dsNotT | .dsNotQ | .dsIntr => true
  | _ => false

/-- the place in the coarse model -/
def GThr.coPc (dq : Bool) (th : GThr) : DPc :=
  match th.pc with
  | .top | .rUnlockQuit => .top
  | .trigLock | .trigCmp | .trigQuit | .trigWoken | .trigRead => .trig
  | .trigSleep => .trigSleep
  | .trigUnlock | .popLock | .popEmpty | .popFin | .popQuit | .popWoken | .brkFin | .brkEmpty | .brkQuit | .popFront | .popPop _ | .failUnlock => .pop
  | .popSleep => .popSleep
  | .popUnlock b | .handle b => .handle b
  | .brkUnlock | .finArr => .finArr
  | .failLock | .failRead | .failErr | .failQueue => .failed
  | .finIn => .finIn
  | .rLock | .rQuit | .rErr | .rErrSet _ | .rFin _ => .reset
  | .rCb e | .rCbClear e _ | .rUnlock e _ => .callback (!e)
  | .callback ok _ => .callback ok
  | .inCallback => .inCallback
  | .done => if dq then .top else .done

def GThr.co (dq : Bool) (th : GThr) : DThr := { pc := th.coPc dq, lastTrig := th.lastTrig }

/-- What a thread inside a critical section knows; `cerr` is `_error` in the coarse model. -/
def GThr.Loc (th : GThr) (trig : BitVec 32) (quit fin err : Bool) (queue : List Nat) (cerr : Bool) : Prop :=
  match th.pc with
  | .trigQuit => trig = th.lastTrig
  | .trigRead => trig ≠ th.lastTrig ∨ quit = true
  | .popFin => queue = []
  | .popQuit => queue = [] ∧ fin = false
  | .brkFin => queue ≠ [] ∨ fin = true ∨ quit = true
  | .brkEmpty => fin = true
  | .brkQuit => queue ≠ [] ∨ quit = true
  | .popFront => quit = false ∧ queue ≠ []
  | .popPop b => quit = false ∧ ∃ q, queue = b :: q
  | .failQueue => err = true
  | .rErr => quit = false
  | .rErrSet e => quit = false ∧ e = cerr
  | .rFin e => quit = false ∧ e = cerr ∧ err = false
  | _ => True

/-- What the user knows. -/
def GUsr.Loc (quit fin : Bool) (trig ctrig : BitVec 32) (queue cqueue : List Nat) (cerr : Bool) (log : List DEv) : GUsr → Prop
  | .idle | .unlock | .dsLock | .dsQuit => quit = false
  | .stPtr _ | .stLock _ | .stTrig _ => quit = false ∧ dmayStart log
  | .stNotify _ => quit = false ∧ dmayStart log ∧ trig = ctrig + 1
  | .puLock _ | .puAssert _ | .puErr _ => quit = false ∧ dmayPush log
  | .puPush _ => quit = false ∧ dmayPush log ∧ cerr = false
  | .puNotify b => quit = false ∧ dmayPush log ∧ cerr = false ∧ queue = cqueue ++ [b]
  | .fnLock _ _ | .fnFlag _ _ => quit = false ∧ dmayPush log
  | .fnCb _ _ | .fnQueue _ => quit = false ∧ dmayPush log ∧ fin = true
  | .fnNotify c => quit = false ∧ dmayPush log ∧ fin = true ∧ queue = if c then [] else cqueue
  | .dsNotT | .dsNotQ | .dsIntr | .dsUnlock | .dsJoin => quit = true
  | .aborted => False

structure GRel (f : GS N) (c : DS N) : Prop where
  own : ∀ t, (f.thr t).pc.held = true ↔ f.owner = some (some t)
  uown : f.usr.held = true ↔ f.owner = some none
  trig : f.usr.dtrig = false → c.trig = f.trig
  queue : f.usr.dqueue = false → c.queue = f.queue
  err : (∀ t, (f.thr t).pc.derr = false) → c.error = f.error
  fin : f.usr.dfin = false → c.finalizing = f.finalizing
  quit : c.quit = (f.quit && !f.usr.dquit)
  bar : c.bar = f.bar
  thr : ∀ t, c.thr t = (f.thr t).co f.usr.dquit
  awkT : f.usr = .dsNotQ ∨ f.usr = .dsIntr → ∀ t, (f.thr t).pc ≠ .trigSleep
  awkQ : f.usr = .dsIntr → ∀ t, (f.thr t).pc ≠ .popSleep
  loc : ∀ t, (f.thr t).Loc f.trig f.quit f.finalizing f.error f.queue c.error
  uloc : f.usr.Loc f.quit f.finalizing f.trig c.trig f.queue c.queue c.error f.log
  log : c.log = f.log

theorem GPc.derr_held {p : GPc} (h : p.held = false) : p.derr = false := by cases p <;> simp_all [derr, held]
theorem GThr.loc_free {th : GThr} (h : th.pc.held = false) {trig quit fin err queue cerr} : th.Loc trig quit fin err queue cerr := by
  unfold Loc
  cases hp : th.pc <;> rw [hp] at h <;> simp_all [GPc.held]
theorem GUsr.free {u : GUsr} (h : u.held = false) : u.dtrig = false ∧ u.dfin = false ∧ u.dqueue = false ∧ u.dquit = false ∧ u ≠ .dsNotQ ∧ u ≠ .dsIntr := by
  cases u <;> simp_all [dtrig, dfin, dqueue, dquit, held]

/-- events of the threads -/
def GLogOk (l l' : List DEv) : Prop := l' = l ∨ ∃ e, l' = e :: l ∧ e.isStart = false ∧ ∀ c, e ≠ .finalize c

theorem GLogOk.start {l l' : List DEv} (h : GLogOk l l') (hm : dmayStart l) : dmayStart l' := by
  rcases h with rfl | ⟨e, rfl, he, _⟩
  · exact hm
  · rcases hm with h1 | ⟨ok, h1⟩
    · left; rw [dstarted_cons he]; exact h1
    · right; exact ⟨ok, by rw [dcurOp_cons he]; exact List.mem_cons_of_mem _ h1⟩

theorem GLogOk.push {l l' : List DEv} (h : GLogOk l l') (hm : dmayPush l) : dmayPush l' := by
  rcases h with rfl | ⟨e, rfl, he, hf⟩
  · exact hm
  · refine ⟨by rw [dstarted_cons he]; exact hm.1, fun c => ?_⟩
    rw [dcurOp_cons he]
    intro hx
    rcases List.mem_cons.1 hx with hx | hx
    · exact hf c hx.symm
    · exact hm.2 c hx

theorem GLogOk.uloc {l l' : List DEv} (h : GLogOk l l') {u : GUsr} {quit fin trig ctrig queue cqueue cerr}
    (hl : u.Loc quit fin trig ctrig queue cqueue cerr l) : u.Loc quit fin trig ctrig queue cqueue cerr l' := by
  cases u <;> simp only [GUsr.Loc] at hl ⊢ <;> first
    | exact hl
    | exact ⟨hl.1, h.start hl.2⟩
    | exact ⟨hl.1, h.start hl.2.1, hl.2.2⟩
    | exact ⟨hl.1, h.push hl.2⟩
    | exact ⟨hl.1, h.push hl.2.1, hl.2.2⟩

theorem GUsr.loc_free {u : GUsr} (h : u.held = false) {quit fin trig ctrig queue cqueue cerr log} (hl : u.Loc quit fin trig ctrig queue cqueue cerr log)
    {fin' trig' ctrig' queue' cqueue' cerr'} : u.Loc quit fin' trig' ctrig' queue' cqueue' cerr' log := by
  cases u <;> simp only [GUsr.Loc] at hl ⊢ <;> first | exact hl | cases h

namespace GRel
variable {f : GS N} {c : DS N} {t : Fin N}

theorem alone (h : GRel f c) (ht : (f.thr t).pc.held = true) {u : Fin N} (hu : u ≠ t) : (f.thr u).pc.held = false := by
  by_contra hc
  have h1 := (h.own t).1 ht
  have h2 := (h.own u).1 (by simpa using hc)
  rw [h1] at h2
  cases h2
  exact hu rfl

theorem usrFree (h : GRel f c) (ht : (f.thr t).pc.held = true) : f.usr.held = false := by
  by_contra hc
  have h1 := (h.own t).1 ht
  have h2 := h.uown.1 (by simpa using hc)
  rw [h1] at h2
  cases h2

theorem thrFree (h : GRel f c) (hu : f.usr.held = true) (t : Fin N) : (f.thr t).pc.held = false := by
  by_contra hc
  have := h.usrFree (by simpa using hc : (f.thr t).pc.held = true)
  rw [hu] at this; cases this

theorem thrNone (h : GRel f c) (ho : f.owner = none) (t : Fin N) : (f.thr t).pc.held = false := by
  by_contra hc
  have := (h.own t).1 (by simpa using hc)
  rw [ho] at this; cases this

theorem usrNone (h : GRel f c) (ho : f.owner = none) : f.usr.held = false := by
  by_contra hc
  have := h.uown.1 (by simpa using hc)
  rw [ho] at this; cases this

/-- how the owner of the mutex may change when thread `t` goes to `p` -/
def Own (f : GS N) (t : Fin N) (p : GPc) (o : Option (Option (Fin N))) : Prop :=
  (o = f.owner ∧ p.held = (f.thr t).pc.held) ∨ (f.owner = none ∧ o = some (some t) ∧ p.held = true) ∨
    ((f.thr t).pc.held = true ∧ o = none ∧ p.held = false)

theorem own_step (h : GRel f c) {th : GThr} {o : Option (Option (Fin N))} (ho : Own f t th.pc o) (u : Fin N) :
    ((Function.update f.thr t th) u).pc.held = true ↔ o = some (some u) := by
  rcases ho with ⟨h1, h2⟩ | ⟨h1, h2, h3⟩ | ⟨h1, h2, h3⟩
  · subst h1
    by_cases hu : u = t
    · subst hu; simp only [Function.update_self, h2]; exact h.own u
    · simp only [Function.update_of_ne hu]; exact h.own u
  · subst h2
    by_cases hu : u = t
    · subst hu; simp [h3]
    · simp only [Function.update_of_ne hu, h.thrNone h1 u]
      simp [Ne.symm hu]
  · subst h2
    by_cases hu : u = t
    · subst hu; simp [h3]
    · simp only [Function.update_of_ne hu, h.alone h1 hu]
      simp

theorem uown_step (h : GRel f c) {p : GPc} {o : Option (Option (Fin N))} (ho : Own f t p o) :
    f.usr.held = true ↔ o = some none := by
  rcases ho with ⟨h1, h2⟩ | ⟨h1, h2, h3⟩ | ⟨h1, h2, h3⟩
  · subst h1; exact h.uown
  · subst h2; rw [h.usrNone h1]; simp
  · subst h2; rw [h.usrFree h1]; simp

/-- The members change only inside a critical section. -/
def Chg (f : GS N) (c : DS N) (t : Fin N) (p : GPc) (q q' : List Nat) (er er' fi fi' : Bool) : Prop :=
  (q = f.queue ∧ q' = c.queue ∧ er = f.error ∧ er' = c.error ∧ fi = f.finalizing ∧ fi' = c.finalizing ∧ p.derr = (f.thr t).pc.derr) ∨
    ((f.thr t).pc.held = true ∧ q' = q ∧ fi' = fi ∧ (p.derr = false → er' = er))

/-- A step of thread `t` -/
theorem go (h : GRel f c) {th : GThr} {o : Option (Option (Fin N))} {q q' : List Nat} {er er' fi fi' : Bool} {b : Bar N} {l : List DEv}
    {g : Option Nat} {cbs : List CbEv} (ho : Own f t th.pc o) (hc : Chg f c t th.pc q q' er er' fi fi')
    (hl : th.Loc f.trig f.quit fi er q er') (hs : th.pc.sleepy = true → (f.thr t).pc.held = true) (hlog : GLogOk f.log l) :
    GRel { f with owner := o, queue := q, error := er, finalizing := fi, cb := g, cbs := cbs, bar := b, thr := Function.update f.thr t th, log := l }
      { c with queue := q', error := er', finalizing := fi', bar := b, thr := Function.update c.thr t (th.co f.usr.dquit), log := l } := by
  have awk : ∀ {p : GPc}, p.sleepy = true → (f.usr = .dsNotQ ∨ f.usr = .dsIntr) → (∀ u, (f.thr u).pc ≠ p) → ∀ u, (Function.update f.thr t th u).pc ≠ p := by
    intro p hp hx hy u
    by_cases hu : u = t
    · subst hu
      rw [Function.update_self]
      intro he
      obtain ⟨_, _, _, _, h1, h2⟩ := GUsr.free (h.usrFree (hs (he ▸ hp)))
      exact hx.elim h1 h2
    · simp only [Function.update_of_ne hu]; exact hy u
  refine ⟨h.own_step ho, h.uown_step ho, h.trig, ?_, ?_, ?_, h.quit, rfl, ?_, fun hx => awk rfl hx (h.awkT hx), fun hx => awk rfl (.inr hx) (h.awkQ hx), ?_, ?_, rfl⟩
  · intro hx
    rcases hc with ⟨rfl, rfl, _⟩ | ⟨_, h1, _⟩
    · exact h.queue hx
    · exact h1
  · intro hx
    rcases hc with ⟨_, _, rfl, rfl, _, _, hd⟩ | ⟨_, _, _, h1⟩
    · refine h.err fun u => ?_
      have := hx u
      by_cases hu : u = t
      · subst hu; rw [← hd]; simpa using this
      · simpa [hu] using this
    · exact h1 (by simpa using hx t)
  · intro hx
    rcases hc with ⟨_, _, _, _, rfl, rfl, _⟩ | ⟨_, _, h1, _⟩
    · exact h.fin hx
    · exact h1
  · intro u
    show Function.update c.thr t _ u = (Function.update f.thr t th u).co _
    by_cases hu : u = t
    · subst hu; simp
    · simp only [Function.update_of_ne hu]; exact h.thr u
  · intro u
    show (Function.update f.thr t th u).Loc f.trig f.quit fi er q er'
    by_cases hu : u = t
    · subst hu; simpa using hl
    · simp only [Function.update_of_ne hu]
      rcases hc with ⟨rfl, rfl, rfl, rfl, rfl, rfl, _⟩ | ⟨h1, _⟩
      · exact h.loc u
      · exact GThr.loc_free (h.alone h1 hu)
  · refine hlog.uloc ?_
    rcases hc with ⟨rfl, rfl, rfl, rfl, rfl, rfl, _⟩ | ⟨h1, _⟩
    · exact h.uloc
    · exact GUsr.loc_free (h.usrFree h1) h.uloc

/-- steps to go until the coarse model takes a step -/
def _root_.Lib842.GPc.rank : GPc → Nat
  | .trigUnlock | .failUnlock => 13
  | .popLock | .popWoken => 12
  | .popEmpty => 11
  | .popFin => 10
  | .trigWoken | .trigLock | .failLock | .rLock | .popQuit => 9
  | .trigCmp | .failRead | .rQuit | .brkFin => 8
  | .trigQuit | .failErr | .rErr | .brkEmpty => 7
  | .trigRead | .failQueue | .rErrSet _ | .brkQuit => 6
  | .popFront => 5
  | .popPop _ | .rFin _ => 4
  | .rCb _ => 3
  | .rCbClear _ _ | .rUnlockQuit => 2
  | .top | .popUnlock _ | .brkUnlock | .rUnlock _ _ => 1
  | _ => 0

def _root_.Lib842.GS.wgt (f : GS N) : Nat := ∑ t, (f.thr t).pc.rank

theorem wgt_lt {f f' : GS N} (h : ∀ u, u ≠ t → f'.thr u = f.thr u) (ht : (f'.thr t).pc.rank < (f.thr t).pc.rank) : f'.wgt < f.wgt := by
  refine Finset.sum_lt_sum (fun u _ => ?_) ⟨t, Finset.mem_univ _, ht⟩
  by_cases hu : u = t
  · subst hu; exact Nat.le_of_lt ht
  · rw [h u hu]

/-- The step `f` to `f'` of thread `t` is a step of the coarse model, or brings it nearer. -/
def Sim (t : Fin N) (f f' : GS N) (c : DS N) : Prop :=
  ∃ c', GRel f' c' ∧ (DWork t c c' ∨ (c' = c ∧ f'.wgt < f.wgt))

theorem cpc (h : GRel f c) (t : Fin N) : (c.thr t).pc = (f.thr t).coPc f.usr.dquit := by rw [h.thr t]; rfl

theorem setPc_self {c : DS N} {q : DPc} (h : (c.thr t).pc = q) : c.setPc t q = c := by
  unfold DS.setPc DS.setThr
  rw [← h]
  simp

theorem quit_eq (h : GRel f c) (ht : (f.thr t).pc.held = true) : c.quit = f.quit := by
  rw [h.quit, (GUsr.free (h.usrFree ht)).2.2.2.1]; simp

/-- a step that changes a pc (and, maybe, members) without a step of the coarse model -/
theorem stay (h : GRel f c) {p p' : GPc} {o : Option (Option (Fin N))} {er : Bool} {g : Option Nat} (hpc : (f.thr t).pc = p) (ho : Own f t p' o)
    (hc : Chg f c t p' f.queue c.queue er c.error f.finalizing c.finalizing) (hr : p'.rank < p.rank) (hs : p'.sleepy = false)
    (hl : GThr.Loc { f.thr t with pc := p' } f.trig f.quit f.finalizing er f.queue c.error)
    (hco : GThr.coPc f.usr.dquit { f.thr t with pc := p' } = (f.thr t).coPc f.usr.dquit) :
    Sim t f ({ f with owner := o, error := er, cb := g }.setPc t p') c := by
  refine ⟨c, ?_, .inr ⟨rfl, ?_⟩⟩
  · have := h.go (g := g) (cbs := f.cbs) (b := f.bar) (th := { f.thr t with pc := p' }) ho hc hl (fun hx => by rw [hs] at hx; cases hx) (.inl rfl)
    have e : Function.update c.thr t (GThr.co f.usr.dquit { f.thr t with pc := p' }) = c.thr := by
      rw [show GThr.co f.usr.dquit { f.thr t with pc := p' } = c.thr t by rw [h.thr t]; simp only [GThr.co, hco]]
      simp
    rw [e] at this
    exact ⟨this.own, this.uown, this.trig, this.queue, this.err, this.fin, this.quit, h.bar, this.thr, this.awkT, this.awkQ, this.loc, this.uloc, h.log⟩
  · refine wgt_lt (t := t) (fun u hu => ?_) ?_
    · simp [GS.setPc, GS.setThr, hu]
    · simp only [GS.setPc, GS.setThr, Function.update_self, hpc]
      exact hr

theorem same (h : (f.thr t).pc.derr = p'.derr) : Chg f c t p' f.queue c.queue f.error c.error f.finalizing c.finalizing :=
  .inl ⟨rfl, rfl, rfl, rfl, rfl, rfl, h.symm⟩

/-- a step of both models that changes a pc only -/
theorem move (h : GRel f c) {p p' : GPc} {o : Option (Option (Fin N))} (hpc : (f.thr t).pc = p) (ho : Own f t p' o)
    (hd : p.derr = p'.derr) (hs : p'.sleepy = true → (f.thr t).pc.held = true)
    (hl : GThr.Loc { f.thr t with pc := p' } f.trig f.quit f.finalizing f.error f.queue c.error) {q : DPc}
    (hco : GThr.coPc f.usr.dquit { f.thr t with pc := p' } = q) (hw : DWork t c (c.setPc t q)) :
    Sim t f ({ f with owner := o }.setPc t p') c := by
  refine ⟨_, ?_, .inl hw⟩
  have := h.go (g := f.cb) (cbs := f.cbs) (b := f.bar) (th := { f.thr t with pc := p' }) ho (same (by rw [hpc]; exact hd)) hl hs (.inl rfl)
  have e : ({ c.thr t with pc := q } : DThr) = GThr.co f.usr.dquit { f.thr t with pc := p' } := by
    rw [h.thr t]; simp only [GThr.co, hco]
  unfold DS.setPc
  rw [e]
  exact ⟨this.own, this.uown, this.trig, this.queue, this.err, this.fin, this.quit, h.bar, this.thr, this.awkT, this.awkQ, this.loc, this.uloc, h.log⟩

/-- a step of both models that adds to the trace -/
theorem event (h : GRel f c) {p p' : GPc} {q' : List Nat} {e : DEv} {cbs : List CbEv} (hpc : (f.thr t).pc = p) (ho : p'.held = p.held)
    (hd : p.derr = p'.derr) (hs : p'.sleepy = false) (hq : q' = f.queue ∨ p.held = true)
    (hl : GThr.Loc { f.thr t with pc := p' } f.trig f.quit f.finalizing f.error q' c.error) {q : DPc}
    (hco : GThr.coPc f.usr.dquit { f.thr t with pc := p' } = q) (he : e.isStart = false ∧ ∀ c, e ≠ .finalize c) {q'' : List Nat}
    (hq'' : q' = f.queue → q'' = c.queue) (hq3 : p.held = true → q'' = q')
    (hw : DWork t c ({ c with queue := q'', log := e :: c.log }.setPc t q)) :
    Sim t f ({ f with queue := q', log := e :: f.log, cbs := cbs }.setPc t p') c := by
  refine ⟨_, ?_, .inl hw⟩
  have hc : Chg f c t p' q' q'' f.error c.error f.finalizing c.finalizing := by
    cases hp : p.held with
    | false =>
      have := hq.resolve_right (by rw [hp]; simp)
      exact .inl ⟨this, hq'' this, rfl, rfl, rfl, rfl, by rw [hpc]; exact hd.symm⟩
    | true =>
      have hh : (f.thr t).pc.held = true := by rw [hpc]; exact hp
      refine .inr ⟨hh, hq3 hp, h.fin (GUsr.free (h.usrFree hh)).2.1, fun hx => h.err fun u => ?_⟩
      by_cases hu : u = t
      · subst hu; rw [hpc, hd]; exact hx
      · exact GPc.derr_held (h.alone hh hu)
  have := h.go (g := f.cb) (cbs := cbs) (b := f.bar) (th := { f.thr t with pc := p' }) (.inl ⟨rfl, by rw [hpc]; exact ho⟩) hc hl
    (fun hx => by rw [hs] at hx; cases hx) (.inr ⟨e, rfl, he⟩)
  have e2 : ({ c.thr t with pc := q } : DThr) = GThr.co f.usr.dquit { f.thr t with pc := p' } := by
    rw [h.thr t]; simp only [GThr.co, hco]
  unfold DS.setPc
  rw [show (({ c with queue := q'', log := e :: c.log } : DS N).thr t) = c.thr t from rfl, e2]
  exact ⟨this.own, this.uown, this.trig, this.queue, this.err, this.fin, this.quit, h.bar, this.thr, this.awkT, this.awkQ, this.loc, this.uloc, by
    show _ :: c.log = _ :: f.log; rw [h.log]⟩

theorem keep {p p' : GPc} (hpc : (f.thr t).pc = p) (h : p'.held = p.held) : Own f t p' f.owner := .inl ⟨rfl, by rw [hpc]; exact h⟩
theorem acquire {p' : GPc} (ho : f.owner = none) (h : p'.held = true) : Own f t p' (some (some t)) := .inr (.inl ⟨ho, rfl, h⟩)
theorem release {p p' : GPc} (hpc : (f.thr t).pc = p) (hp : p.held = true) (h : p'.held = false) : Own f t p' none :=
  .inr (.inr ⟨by rw [hpc]; exact hp, rfl, h⟩)

theorem err_held (h : GRel f c) (ht : (f.thr t).pc.held = true) (hd : (f.thr t).pc.derr = false) : c.error = f.error :=
  h.err fun u => by
    by_cases hut : u = t
    · rw [hut]; exact hd
    · exact GPc.derr_held (h.alone ht hut)

theorem sim (h : GRel f c) {f' : GS N} (hs : GWork t f f') : Sim t f f' c := by
  have hcp := h.cpc t
  have hl := h.loc t
  have hheld : ∀ {p : GPc}, (f.thr t).pc = p → p.held = true → c.queue = f.queue ∧ c.finalizing = f.finalizing ∧ c.quit = f.quit ∧ c.trig = f.trig := by
    intro p hp hx
    have hh : (f.thr t).pc.held = true := by rw [hp]; exact hx
    have hu := GUsr.free (h.usrFree hh)
    exact ⟨h.queue hu.2.2.1, h.fin hu.2.1, h.quit_eq hh, h.trig hu.1⟩
  have stay' : ∀ {p p' : GPc} {o : Option (Option (Fin N))}, (f.thr t).pc = p → Own f t p' o → p'.derr = p.derr → p'.rank < p.rank → p'.sleepy = false →
      GThr.Loc { f.thr t with pc := p' } f.trig f.quit f.finalizing f.error f.queue c.error →
      GThr.coPc f.usr.dquit { f.thr t with pc := p' } = (f.thr t).coPc f.usr.dquit → Sim t f ({ f with owner := o }.setPc t p') c := by
    intro p p' o hp ho hd hr hsl hloc hco
    exact h.stay (er := f.error) (g := f.cb) hp ho (same (by rw [hp]; exact hd.symm)) hr hsl hloc hco
  cases hs with
  | topQuit hp hq =>
    cases hdq : f.usr.dquit with
    | true => exact stay' hp (keep hp rfl) rfl (by decide) rfl trivial (by simp [GThr.coPc, hp, hdq])
    | false =>
      refine h.move hp (keep hp rfl) rfl (fun hx => by cases hx) trivial (q := .done) (by simp [GThr.coPc, hdq]) (.topQuit ?_ ?_)
      · rw [hcp]; simp [GThr.coPc, hp]
      · rw [h.quit, hq, hdq]; rfl
  | topGo hp hq =>
    refine h.move hp (keep hp rfl) rfl (fun hx => by cases hx) trivial rfl (.topGo ?_ ?_)
    · rw [hcp]; simp [GThr.coPc, hp]
    · rw [h.quit, hq]; rfl
  | trigLock hp ho =>
    rcases hp with hp | hp <;> exact stay' hp (acquire ho rfl) rfl (by decide) rfl trivial (by simp [GThr.coPc, hp])
  | trigNe hp hne => exact stay' hp (keep hp rfl) rfl (by decide) rfl (.inl hne) (by simp [GThr.coPc, hp])
  | trigEq hp he => exact stay' hp (keep hp rfl) rfl (by decide) rfl he (by simp [GThr.coPc, hp])
  | trigQuit hp hq => exact stay' hp (keep hp rfl) rfl (by decide) rfl (.inr hq) (by simp [GThr.coPc, hp])
  | trigWait hp hq =>
    obtain ⟨_, _, h3, h4⟩ := hheld hp rfl
    simp only [GThr.Loc, hp] at hl
    refine h.move hp (release hp rfl rfl) rfl (fun _ => by rw [hp]; rfl) trivial rfl (.trigWait ?_ ⟨?_, ?_⟩)
    · rw [hcp]; simp [GThr.coPc, hp]
    · rw [h4, h.thr t]; exact hl
    · rw [h3, hq]
  | trigRead hp =>
    obtain ⟨_, _, h3, h4⟩ := hheld hp rfl
    simp only [GThr.Loc, hp] at hl
    refine ⟨_, ?_, .inl (.trigGo ?_ ?_)⟩
    · have := h.go (g := f.cb) (cbs := f.cbs) (b := f.bar) (th := { pc := .trigUnlock, lastTrig := f.trig }) (keep hp rfl) (same (by rw [hp]; rfl)) trivial
        (fun hx => by cases hx) (.inl rfl)
      rw [h4]
      exact ⟨this.own, this.uown, this.trig, this.queue, this.err, this.fin, this.quit, h.bar, this.thr, this.awkT, this.awkQ, this.loc, this.uloc, h.log⟩
    · rw [hcp]; simp [GThr.coPc, hp]
    · rw [h4, h.thr t, h3]; exact hl
  | trigUnlock hp => exact stay' hp (release hp rfl rfl) rfl (by decide) rfl trivial (by simp [GThr.coPc, hp])
  | popLock hp ho =>
    rcases hp with hp | hp <;> exact stay' hp (acquire ho rfl) rfl (by decide) rfl trivial (by simp [GThr.coPc, hp])
  | popEmpty hp =>
    split
    · rename_i hq; exact stay' hp (keep hp rfl) rfl (by decide) rfl hq (by simp [GThr.coPc, hp])
    · rename_i hq; exact stay' hp (keep hp rfl) rfl (by decide) rfl (.inl hq) (by simp [GThr.coPc, hp])
  | popFin hp =>
    simp only [GThr.Loc, hp] at hl
    split
    · rename_i hq; exact stay' hp (keep hp rfl) rfl (by decide) rfl (.inr (.inl hq)) (by simp [GThr.coPc, hp])
    · rename_i hq; exact stay' hp (keep hp rfl) rfl (by decide) rfl ⟨hl, by simpa using hq⟩ (by simp [GThr.coPc, hp])
  | popQuit hp hq => exact stay' hp (keep hp rfl) rfl (by decide) rfl (.inr (.inr hq)) (by simp [GThr.coPc, hp])
  | popWait hp hq =>
    obtain ⟨h1, h2, h3, h4⟩ := hheld hp rfl
    simp only [GThr.Loc, hp] at hl
    refine h.move hp (release hp rfl rfl) rfl (fun _ => by rw [hp]; rfl) trivial rfl (.popWait ?_ ⟨?_, ?_, ?_⟩)
    · rw [hcp]; simp [GThr.coPc, hp]
    · rw [h1]; exact hl.1
    · rw [h2]; exact hl.2
    · rw [h3, hq]
  | brkFin hp =>
    simp only [GThr.Loc, hp] at hl
    split
    · rename_i hq; exact stay' hp (keep hp rfl) rfl (by decide) rfl hq (by simp [GThr.coPc, hp])
    · rename_i hq
      refine stay' hp (keep hp rfl) rfl (by decide) rfl ?_ (by simp [GThr.coPc, hp])
      rcases hl with hl | hl | hl
      · exact .inl hl
      · exact absurd hl hq
      · exact .inr hl
  | brkEmpty hp =>
    obtain ⟨h1, h2, h3, h4⟩ := hheld hp rfl
    simp only [GThr.Loc, hp] at hl
    split
    · rename_i hq
      refine h.move hp (keep hp rfl) rfl (fun hx => by cases hx) trivial rfl (.popBreak ?_ (.inl ⟨?_, ?_⟩))
      · rw [hcp]; simp [GThr.coPc, hp]
      · rw [h2]; exact hl
      · rw [h1]; exact hq
    · rename_i hq; exact stay' hp (keep hp rfl) rfl (by decide) rfl (.inl hq) (by simp [GThr.coPc, hp])
  | brkQuit hp =>
    obtain ⟨h1, h2, h3, h4⟩ := hheld hp rfl
    simp only [GThr.Loc, hp] at hl
    split
    · rename_i hq
      refine h.move hp (keep hp rfl) rfl (fun hx => by cases hx) trivial rfl (.popBreak ?_ (.inr ?_))
      · rw [hcp]; simp [GThr.coPc, hp]
      · rw [h3, hq]
    · rename_i hq
      exact stay' hp (keep hp rfl) rfl (by decide) rfl ⟨by simpa using hq, hl.resolve_right hq⟩ (by simp [GThr.coPc, hp])
  | popFront hp hq =>
    simp only [GThr.Loc, hp] at hl
    exact stay' hp (keep hp rfl) rfl (by simp [GPc.rank]) rfl ⟨hl.1, _, hq⟩ (by simp [GThr.coPc, hp])
  | popPop hp =>
    rename_i b
    obtain ⟨h1, h2, h3, h4⟩ := hheld hp rfl
    simp only [GThr.Loc, hp] at hl
    obtain ⟨l1, q, l2⟩ := hl
    refine h.event (q'' := q) hp rfl rfl rfl (.inr rfl) trivial rfl ⟨rfl, by simp⟩ ?_ (fun _ => by rw [l2]; rfl) (.popTake ?_ ?_ ?_)
    · intro hx; rw [l2] at hx; simp at hx
    · rw [hcp]; simp [GThr.coPc, hp]
    · rw [h3, l1]
    · rw [h1, l2]
  | popUnlock hp => exact stay' hp (release hp rfl rfl) rfl (by simp [GPc.rank]) rfl trivial (by simp [GThr.coPc, hp])
  | brkUnlock hp => exact stay' hp (release hp rfl rfl) rfl (by decide) rfl trivial (by simp [GThr.coPc, hp])
  | handleOk hp =>
    refine h.event (q'' := c.queue) (cbs := f.cbs) hp rfl rfl rfl (.inl rfl) trivial rfl ⟨rfl, by simp⟩ (fun _ => rfl) (fun hx => by cases hx) (.handleOk ?_)
    rw [hcp]; simp [GThr.coPc, hp]
  | handleFail hp =>
    refine h.event (q'' := c.queue) (cbs := f.cbs) hp rfl rfl rfl (.inl rfl) trivial rfl ⟨rfl, by simp⟩ (fun _ => rfl) (fun hx => by cases hx) (.handleFail ?_)
    rw [hcp]; simp [GThr.coPc, hp]
  | failLock hp ho => exact stay' hp (acquire ho rfl) rfl (by decide) rfl trivial (by simp [GThr.coPc, hp])
  | failRead hp => exact stay' hp (keep hp rfl) rfl (by decide) rfl trivial (by simp [GThr.coPc, hp])
  | failErr hp =>
    obtain ⟨h1, h2, h3, h4⟩ := hheld hp rfl
    exact h.stay (g := f.cb) hp (keep hp rfl) (.inr ⟨by rw [hp]; rfl, h1, h2, fun hx => by cases hx⟩) (by decide) rfl rfl (by simp [GThr.coPc, hp])
  | failQueue hp =>
    obtain ⟨h1, h2, h3, h4⟩ := hheld hp rfl
    simp only [GThr.Loc, hp] at hl
    have hpc : (c.thr t).pc = .failed := by rw [hcp]; simp [GThr.coPc, hp]
    refine ⟨_, ?_, .inl (.failed hpc)⟩
    have := h.go (g := f.cb) (cbs := f.cbs) (b := f.bar) (th := { f.thr t with pc := .failUnlock }) (q := []) (q' := []) (er := f.error) (er' := true)
      (fi := f.finalizing) (fi' := c.finalizing)
      (keep hp rfl) (.inr ⟨by rw [hp]; rfl, rfl, h2, fun _ => hl.symm⟩) trivial (fun hx => by cases hx) (.inl rfl)
    unfold DS.setPc
    rw [show ({ c with error := true, queue := [] } : DS N).thr t = c.thr t from rfl, h.thr t]
    exact ⟨this.own, this.uown, this.trig, this.queue, this.err, this.fin, this.quit, h.bar, this.thr, this.awkT, this.awkQ, this.loc, this.uloc, h.log⟩
  | failUnlock hp => exact stay' hp (release hp rfl rfl) rfl (by decide) rfl trivial (by simp [GThr.coPc, hp])
  | finArrive hp =>
    have hpc : (c.thr t).pc = .finArr := by rw [hcp]; simp [GThr.coPc, hp]
    refine ⟨_, ?_, .inl (.finArrive hpc)⟩
    have := h.go (g := f.cb) (cbs := f.cbs) (b := f.bar.arrive t) (th := { f.thr t with pc := .finIn }) (keep hp rfl) (same (by rw [hp]; rfl)) trivial
      (fun hx => by cases hx) (.inl rfl)
    unfold DS.setPc
    rw [show ({ c with bar := c.bar.arrive t } : DS N).thr t = c.thr t from rfl, h.thr t, h.bar]
    exact ⟨this.own, this.uown, this.trig, this.queue, this.err, this.fin, this.quit, rfl, this.thr, this.awkT, this.awkQ, this.loc, this.uloc, h.log⟩
  | recheck hw =>
    rename_i g
    refine ⟨_, ?_, .inl (.recheck (g := g) (by rw [h.bar]; exact hw))⟩
    exact { h with bar := by show c.bar.recheck t g = f.bar.recheck t g; rw [h.bar] }
  | finOut hp hw =>
    have hpc : (c.thr t).pc = .finIn := by rw [hcp]; simp [GThr.coPc, hp]
    have hwk := DWork.finOut hpc (by rw [h.bar]; exact hw)
    split
    · rename_i h0
      rw [if_pos h0] at hwk
      exact h.move hp (keep hp rfl) rfl (fun hx => by cases hx) trivial rfl hwk
    · rename_i h0
      rw [if_neg h0] at hwk
      exact h.move hp (keep hp rfl) rfl (fun hx => by cases hx) trivial rfl hwk
  | rLock hp ho => exact stay' hp (acquire ho rfl) rfl (by decide) rfl trivial (by simp [GThr.coPc, hp])
  | rQuit hp =>
    obtain ⟨h1, h2, h3, h4⟩ := hheld hp rfl
    split
    · rename_i hq
      refine h.move hp (keep hp rfl) rfl (fun hx => by cases hx) trivial rfl (.resetQuit ?_ ?_)
      · rw [hcp]; simp [GThr.coPc, hp]
      · rw [h3, hq]
    · rename_i hq
      exact stay' hp (keep hp rfl) rfl (by decide) rfl (by simpa [GThr.Loc] using hq) (by simp [GThr.coPc, hp])
  | rErr hp =>
    simp only [GThr.Loc, hp] at hl
    exact stay' hp (keep hp rfl) rfl (by simp [GPc.rank]) rfl ⟨hl, (h.err_held (by rw [hp]; rfl) (by rw [hp]; rfl)).symm⟩ (by simp [GThr.coPc, hp])
  | rErrSet hp =>
    obtain ⟨h1, h2, h3, h4⟩ := hheld hp rfl
    simp only [GThr.Loc, hp] at hl
    exact h.stay (g := f.cb) hp (keep hp rfl) (.inr ⟨by rw [hp]; rfl, h1, h2, fun hx => by cases hx⟩) (by simp [GPc.rank]) rfl ⟨hl.1, hl.2, rfl⟩
      (by simp [GThr.coPc, hp])
  | rFin hp =>
    rename_i e
    obtain ⟨h1, h2, h3, h4⟩ := hheld hp rfl
    simp only [GThr.Loc, hp] at hl
    obtain ⟨l1, l2, l3⟩ := hl
    have hpc : (c.thr t).pc = .reset := by rw [hcp]; simp [GThr.coPc, hp]
    refine ⟨_, ?_, .inl (.reset hpc (by rw [h3, l1]))⟩
    have := h.go (g := f.cb) (cbs := f.cbs) (b := f.bar) (th := { f.thr t with pc := .rCb e }) (q := f.queue) (q' := c.queue) (er := f.error) (er' := false)
      (fi := false) (fi' := false) (keep hp rfl) (.inr ⟨by rw [hp]; rfl, h1, rfl, fun _ => l3.symm⟩) trivial (fun hx => by cases hx) (.inl rfl)
    unfold DS.setPc
    rw [show ({ c with error := false, finalizing := false } : DS N).thr t = c.thr t from rfl, h.thr t, ← l2]
    exact ⟨this.own, this.uown, this.trig, this.queue, this.err, this.fin, this.quit, h.bar, this.thr, this.awkT, this.awkQ, this.loc, this.uloc, h.log⟩
  | rCb hp => exact h.stay (er := f.error) hp (keep hp rfl) (same (by rw [hp]; rfl)) (by simp [GPc.rank]) rfl trivial (by simp [GThr.coPc, hp])
  | rCbClear hp => exact h.stay (er := f.error) hp (keep hp rfl) (same (by rw [hp]; rfl)) (by simp [GPc.rank]) rfl trivial (by simp [GThr.coPc, hp])
  | rUnlock hp => exact stay' hp (release hp rfl rfl) rfl (by simp [GPc.rank]) rfl trivial (by simp [GThr.coPc, hp])
  | rUnlockQuit hp => exact stay' hp (release hp rfl rfl) rfl (by decide) rfl trivial (by simp [GThr.coPc, hp])
  | callback hp =>
    refine h.event (q'' := c.queue) hp rfl rfl rfl (.inl rfl) trivial rfl ⟨rfl, by simp⟩ (fun _ => rfl) (fun hx => by cases hx) (.callback ?_)
    rw [hcp]; simp [GThr.coPc, hp]
  | callbackDone hp =>
    refine h.move hp (keep hp rfl) rfl (fun hx => by cases hx) trivial rfl (.callbackDone ?_)
    rw [hcp]; simp [GThr.coPc, hp]

/-- a step of the user that reaches only for the mutex -/
theorem setUsr (h : GRel f c) {u : GUsr} {o : Option (Option (Fin N))} {p : Nat}
    (ho : (o = f.owner ∧ u.held = f.usr.held) ∨ (f.owner = none ∧ o = some none ∧ u.held = true) ∨ (f.usr.held = true ∧ o = none ∧ u.held = false))
    (hd : f.usr.dtrig = u.dtrig ∧ f.usr.dfin = u.dfin ∧ f.usr.dqueue = u.dqueue ∧ f.usr.dquit = u.dquit) (hi : u ≠ .dsNotQ ∧ u ≠ .dsIntr)
    (hl : u.Loc f.quit f.finalizing f.trig c.trig f.queue c.queue c.error f.log) : GRel { f with owner := o, usr := u, ptr := p } c := by
  obtain ⟨d1, d2, d3, d4⟩ := hd
  refine ⟨?_, ?_, ?_, ?_, h.err, ?_, ?_, h.bar, ?_, ?_, ?_, h.loc, hl, h.log⟩
  · intro t
    rcases ho with ⟨rfl, _⟩ | ⟨h1, rfl, _⟩ | ⟨h1, rfl, _⟩
    · exact h.own t
    · show (f.thr t).pc.held = true ↔ _
      rw [h.thrNone h1 t]; simp
    · show (f.thr t).pc.held = true ↔ _
      rw [h.thrFree h1 t]; simp
  · rcases ho with ⟨rfl, h2⟩ | ⟨h1, rfl, h2⟩ | ⟨h1, rfl, h2⟩
    · show u.held = true ↔ _
      rw [h2]; exact h.uown
    · simp [h2]
    · simp [h2]
  · show u.dtrig = false → _
    rw [← d1]; exact h.trig
  · show u.dqueue = false → _
    rw [← d3]; exact h.queue
  · show u.dfin = false → _
    rw [← d2]; exact h.fin
  · show _ = (f.quit && !u.dquit)
    rw [← d4]; exact h.quit
  · intro t
    show _ = (f.thr t).co u.dquit
    rw [← d4]; exact h.thr t
  · exact fun hx => hx.elim (fun hx => absurd hx hi.1) (fun hx => absurd hx hi.2)
  · exact fun hx => absurd hx hi.2

/-- a step of the user within a critical section -/
theorem held_go (h : GRel f c) {f' : GS N} {c' : DS N} (hh : f.usr.held = true) (ho : f'.owner = f.owner) (hu : f'.usr.held = true)
    (hfree : ∀ t, (f'.thr t).pc.held = (f.thr t).pc.held) (her : f'.error = f.error ∧ c'.error = c.error)
    (trig : f'.usr.dtrig = false → c'.trig = f'.trig) (queue : f'.usr.dqueue = false → c'.queue = f'.queue)
    (fin : f'.usr.dfin = false → c'.finalizing = f'.finalizing) (quit : c'.quit = (f'.quit && !f'.usr.dquit)) (bar : c'.bar = f'.bar)
    (thr : ∀ t, c'.thr t = (f'.thr t).co f'.usr.dquit) (awkT : f'.usr = .dsNotQ ∨ f'.usr = .dsIntr → ∀ t, (f'.thr t).pc ≠ .trigSleep)
    (awkQ : f'.usr = .dsIntr → ∀ t, (f'.thr t).pc ≠ .popSleep)
    (uloc : f'.usr.Loc f'.quit f'.finalizing f'.trig c'.trig f'.queue c'.queue c'.error f'.log) (log : c'.log = f'.log) : GRel f' c' := by
  have hf : ∀ t, (f'.thr t).pc.held = false := fun t => by rw [hfree t]; exact h.thrFree hh t
  refine ⟨fun t => ?_, ?_, trig, queue, fun _ => ?_, fin, quit, bar, thr, awkT, awkQ, fun t => GThr.loc_free (hf t), uloc, log⟩
  · rw [hf t, ho, h.uown.1 hh]; simp
  · rw [ho]; exact ⟨fun _ => h.uown.1 hh, fun _ => hu⟩
  · rw [her.1, her.2]; exact h.err fun u => GPc.derr_held (h.thrFree hh u)

theorem wakeT_held (th : GThr) : th.wakeT.pc.held = th.pc.held := by
  unfold GThr.wakeT; cases hp : th.pc <;> simp [hp, GPc.held]
theorem wakeQ_held (th : GThr) : th.wakeQ.pc.held = th.pc.held := by
  unfold GThr.wakeQ; cases hp : th.pc <;> simp [hp, GPc.held]
theorem wakeT_ne (th : GThr) : th.wakeT.pc ≠ .trigSleep := by
  unfold GThr.wakeT; cases hp : th.pc <;> simp [hp]
theorem wakeQ_ne (th : GThr) : th.wakeQ.pc ≠ .popSleep := by
  unfold GThr.wakeQ; cases hp : th.pc <;> simp [hp]
theorem wakeQ_neT {th : GThr} (h : th.pc ≠ .trigSleep) : th.wakeQ.pc ≠ .trigSleep := by
  unfold GThr.wakeQ; cases hp : th.pc <;> simp_all
theorem wakeT_co (th : GThr) (dq : Bool) : th.wakeT.co dq = (th.co dq).wakeT := by
  unfold GThr.wakeT GThr.co GThr.coPc DThr.wakeT
  cases hp : th.pc <;> cases dq <;> simp [hp]
theorem wakeQ_co (th : GThr) (dq : Bool) : th.wakeQ.co dq = (th.co dq).wakeQ := by
  unfold GThr.wakeQ GThr.co GThr.coPc DThr.wakeQ
  cases hp : th.pc <;> cases dq <;> simp [hp]

/-- `_trigger_changed.notify_all()`, one thread at a time -/
theorem wakeAllT {c : DS N} (hc : DReach c) (L : List (Fin N)) :
    DReach { c with thr := fun t => if t ∈ L then (c.thr t).wakeT else c.thr t } := by
  induction L with
  | nil => simpa using hc
  | cons a L ih =>
    by_cases ha : a ∈ L
    · convert ih using 2
      funext t
      by_cases ht : t = a
      · subst ht; simp [ha]
      · simp [ht]
    · by_cases hs : (c.thr a).pc = .trigSleep
      · have h2 := DReach.spurious ih (.cvT (t := a) (by simp [ha, hs]))
        convert h2 using 1
        unfold DS.setPc DS.setThr
        congr 1
        funext t
        by_cases ht : t = a
        · subst ht; simp [ha, DThr.wakeT, hs]
        · simp [ht]
      · convert ih using 2
        funext t
        by_cases ht : t = a
        · subst ht
          simp only [List.mem_cons, true_or, if_true, ha, if_false]
          unfold DThr.wakeT
          cases hp : (c.thr t).pc <;> simp_all
        · simp [ht]

/-- `_queue_available.notify_all()`, one thread at a time -/
theorem wakeAllQ {c : DS N} (hc : DReach c) (L : List (Fin N)) :
    DReach { c with thr := fun t => if t ∈ L then (c.thr t).wakeQ else c.thr t } := by
  induction L with
  | nil => simpa using hc
  | cons a L ih =>
    by_cases ha : a ∈ L
    · convert ih using 2
      funext t
      by_cases ht : t = a
      · subst ht; simp [ha]
      · simp [ht]
    · by_cases hs : (c.thr a).pc = .popSleep
      · have h2 := DReach.spurious ih (.cvQ (t := a) (by simp [ha, hs]))
        convert h2 using 1
        unfold DS.setPc DS.setThr
        congr 1
        funext t
        by_cases ht : t = a
        · subst ht; simp [ha, DThr.wakeQ, hs]
        · simp [ht]
      · convert ih using 2
        funext t
        by_cases ht : t = a
        · subst ht
          simp only [List.mem_cons, true_or, if_true, ha, if_false]
          unfold DThr.wakeQ
          cases hp : (c.thr t).pc <;> simp_all
        · simp [ht]

/-- Threads that find `_quit` set -/
theorem quitAll {c : DS N} (hc : DReach c) (hq : c.quit = true) (L : List (Fin N)) (hL : ∀ t ∈ L, (c.thr t).pc = .top) :
    DReach { c with thr := fun t => if t ∈ L then { c.thr t with pc := .done } else c.thr t } := by
  induction L with
  | nil => simpa using hc
  | cons a L ih =>
    have h1 := ih fun t ht => hL t (List.mem_cons_of_mem _ ht)
    by_cases ha : a ∈ L
    · convert h1 using 2
      funext t
      by_cases ht : t = a
      · subst ht; simp [ha]
      · simp [ht]
    · have h2 := DReach.work h1 (.topQuit (t := a) (by simp [ha, hL a List.mem_cons_self]) hq)
      convert h2 using 1
      unfold DS.setPc DS.setThr
      congr 1
      funext t
      by_cases ht : t = a
      · subst ht; simp [ha]
      · simp [ht]

theorem no_done (hc : DReach c) (hq : c.quit = false) (t : Fin N) : (c.thr t).pc ≠ .done := by
  intro hp
  obtain ⟨arr, G, base, run, hi⟩ := dreach_inv hc
  have hT := (hi.n hq).thr t
  simp only [DTInv, hp] at hT

/-- While the user may push, `finalize` has not been called. -/
theorem push_fin (hc : DReach c) (hq : c.quit = false) (hm : dmayPush c.log) : c.finalizing = false := by
  obtain ⟨arr, G, base, run, hi⟩ := dreach_inv hc
  have hN := hi.n hq
  cases run with
  | false => exact (hN.runF rfl).2.2.1
  | true =>
    by_contra hx
    obtain ⟨x, hx⟩ := (hN.runT rfl).2.2.1 (by simpa using hx)
    exact hm.2 x hx

theorem simUser (h : GRel f c) (hc : DReach c) {f' : GS N} (hs : GUser f f') : ∃ c', DReach c' ∧ GRel f' c' := by
  have hl := h.uloc
  have hth := h.thr
  have hqe := h.quit
  cases hs with
  | stPtr hu =>
    rw [hu] at hl
    exact ⟨c, hc, h.setUsr (.inl ⟨rfl, by rw [hu]; rfl⟩) (by rw [hu]; exact ⟨rfl, rfl, rfl, rfl⟩) (by simp) hl⟩
  | stLock hu ho =>
    rw [hu] at hl
    exact ⟨c, hc, h.setUsr (.inr (.inl ⟨ho, rfl, rfl⟩)) (by rw [hu]; exact ⟨rfl, rfl, rfl, rfl⟩) (by simp) hl⟩
  | stTrig hu =>
    rw [hu] at hl hth hqe
    obtain ⟨l1, l2⟩ := hl
    refine ⟨c, hc, h.held_go (by rw [hu]; rfl) rfl rfl (fun _ => rfl) ⟨rfl, rfl⟩ (fun hx => by cases hx) (fun _ => h.queue (by rw [hu]; rfl))
      (fun _ => h.fin (by rw [hu]; rfl)) hqe h.bar hth (fun hx => by rcases hx with hx | hx <;> cases hx) (fun hx => by cases hx) ⟨l1, l2, ?_⟩ h.log⟩
    show f.trig + 1 = c.trig + 1
    rw [h.trig (by rw [hu]; rfl)]
  | stNotify hu =>
    rw [hu] at hl hth hqe
    obtain ⟨l1, l2, l3⟩ := hl
    have hq : c.quit = false := by rw [hqe, l1]; rfl
    refine ⟨_, .user hc (.start hq (by rw [h.log]; exact l2)), h.held_go (by rw [hu]; rfl) rfl rfl (fun t => wakeT_held _) ⟨rfl, rfl⟩ (fun _ => l3.symm)
      (fun _ => h.queue (by rw [hu]; rfl)) (fun _ => h.fin (by rw [hu]; rfl)) hqe h.bar (fun t => ?_)
      (fun hx => by rcases hx with hx | hx <;> cases hx) (fun hx => by cases hx) l1 ?_⟩
    · show (c.thr t).wakeT = (f.thr t).wakeT.co false
      rw [wakeT_co, hth t]; rfl
    · show _ :: c.log = _ :: f.log; rw [h.log]
  | puLock hu ho =>
    rw [hu] at hl
    exact ⟨c, hc, h.setUsr (.inr (.inl ⟨ho, rfl, rfl⟩)) (by rw [hu]; exact ⟨rfl, rfl, rfl, rfl⟩) (by simp) hl⟩
  | puAssert hu =>
    rw [hu] at hl hqe
    obtain ⟨l1, l2⟩ := hl
    have hf := h.fin (by rw [hu]; rfl)
    rw [push_fin hc (by rw [hqe, l1]; rfl) (by rw [h.log]; exact l2)] at hf
    rw [if_neg (by rw [← hf]; simp)]
    exact ⟨c, hc, h.setUsr (.inl ⟨rfl, by rw [hu]; rfl⟩) (by rw [hu]; exact ⟨rfl, rfl, rfl, rfl⟩) (by simp) ⟨l1, l2⟩⟩
  | puRefuse hu he =>
    rename_i b
    rw [hu] at hl hth hqe
    obtain ⟨l1, l2⟩ := hl
    have hh : f.usr.held = true := by rw [hu]; rfl
    have hce := h.err fun u => GPc.derr_held (h.thrFree hh u)
    refine ⟨_, .user hc (.pushErr (b := b) (by rw [hqe, l1]; rfl) (by rw [h.log]; exact l2) (by rw [hce, he])), h.held_go hh rfl rfl (fun _ => rfl) ⟨rfl, rfl⟩
      (fun _ => h.trig (by rw [hu]; rfl)) (fun _ => h.queue (by rw [hu]; rfl))
      (fun _ => h.fin (by rw [hu]; rfl)) hqe h.bar hth (fun hx => by rcases hx with hx | hx <;> cases hx) (fun hx => by cases hx) l1 ?_⟩
    show _ :: c.log = _ :: f.log; rw [h.log]
  | puAccept hu he =>
    rw [hu] at hl
    have hh : f.usr.held = true := by rw [hu]; rfl
    have hce := h.err fun u => GPc.derr_held (h.thrFree hh u)
    exact ⟨c, hc, h.setUsr (.inl ⟨rfl, by rw [hu]; rfl⟩) (by rw [hu]; exact ⟨rfl, rfl, rfl, rfl⟩) (by simp) ⟨hl.1, hl.2, by rw [hce, he]⟩⟩
  | puPush hu =>
    rename_i b
    rw [hu] at hl hth hqe
    obtain ⟨l1, l2, l3⟩ := hl
    refine ⟨c, hc, h.held_go (by rw [hu]; rfl) rfl rfl (fun _ => rfl) ⟨rfl, rfl⟩ (fun _ => h.trig (by rw [hu]; rfl)) (fun hx => by cases hx)
      (fun _ => h.fin (by rw [hu]; rfl)) hqe h.bar hth (fun hx => by rcases hx with hx | hx <;> cases hx) (fun hx => by cases hx) ⟨l1, l2, l3, ?_⟩ h.log⟩
    show f.queue ++ [b] = c.queue ++ [b]
    rw [h.queue (by rw [hu]; rfl)]
  | puNone hu hn =>
    rename_i b
    rw [hu] at hl hth hqe
    obtain ⟨l1, l2, l3, l4⟩ := hl
    refine ⟨_, .user hc (.pushNone (b := b) (by rw [hqe, l1]; rfl) (by rw [h.log]; exact l2) l3 ?_), h.held_go (by rw [hu]; rfl) rfl rfl (fun _ => rfl) ⟨rfl, rfl⟩
      (fun _ => h.trig (by rw [hu]; rfl)) (fun _ => l4.symm)
      (fun _ => h.fin (by rw [hu]; rfl)) hqe h.bar hth (fun hx => by rcases hx with hx | hx <;> cases hx) (fun hx => by cases hx) l1 ?_⟩
    · intro t hp
      rw [h.cpc t] at hp
      refine hn t ?_
      unfold GThr.coPc at hp
      cases hx : (f.thr t).pc <;> rw [hx] at hp <;> first | rfl | (cases hp; done) | (simp only [] at hp; split at hp <;> cases hp)
    · show _ :: c.log = _ :: f.log; rw [h.log]
  | puWake hu hn =>
    rename_i b t
    rw [hu] at hl hth hqe
    obtain ⟨l1, l2, l3, l4⟩ := hl
    refine ⟨_, .user hc (.pushWake (b := b) (t := t) (by rw [hqe, l1]; rfl) (by rw [h.log]; exact l2) l3 (by rw [h.cpc t]; simp [GThr.coPc, hn])),
      h.held_go (by rw [hu]; rfl) rfl rfl (fun u => ?_) ⟨rfl, rfl⟩
      (fun _ => h.trig (by rw [hu]; rfl)) (fun _ => l4.symm)
      (fun _ => h.fin (by rw [hu]; rfl)) hqe h.bar (fun u => ?_) (fun hx => by rcases hx with hx | hx <;> cases hx) (fun hx => by cases hx) l1 ?_⟩
    · by_cases hut : u = t
      · subst hut; simp [GS.setPc, GS.setThr, hn, GPc.held]
      · simp [GS.setPc, GS.setThr, hut]
    · by_cases hut : u = t
      · subst hut; simp [GS.setPc, GS.setThr, DS.setPc, DS.setThr, GThr.co, GThr.coPc, hth u]
      · simp only [GS.setPc, GS.setThr, DS.setPc, DS.setThr, Function.update_of_ne hut]
        exact hth u
    · show _ :: c.log = _ :: f.log; rw [h.log]
  | fnLock hu ho =>
    rw [hu] at hl
    exact ⟨c, hc, h.setUsr (.inr (.inl ⟨ho, rfl, rfl⟩)) (by rw [hu]; exact ⟨rfl, rfl, rfl, rfl⟩) (by simp) hl⟩
  | fnFlag hu =>
    rw [hu] at hl hth hqe
    exact ⟨c, hc, h.held_go (by rw [hu]; rfl) rfl rfl (fun _ => rfl) ⟨rfl, rfl⟩ (fun _ => h.trig (by rw [hu]; rfl)) (fun _ => h.queue (by rw [hu]; rfl))
      (fun hx => by cases hx) hqe h.bar hth (fun hx => by rcases hx with hx | hx <;> cases hx) (fun hx => by cases hx) ⟨hl.1, hl.2, rfl⟩ h.log⟩
  | fnCb hu =>
    rw [hu] at hl hth hqe
    exact ⟨c, hc, h.held_go (by rw [hu]; rfl) rfl rfl (fun _ => rfl) ⟨rfl, rfl⟩ (fun _ => h.trig (by rw [hu]; rfl)) (fun _ => h.queue (by rw [hu]; rfl))
      (fun hx => by cases hx) hqe h.bar hth (fun hx => by rcases hx with hx | hx <;> cases hx) (fun hx => by cases hx) hl h.log⟩
  | fnQueue hu =>
    rename_i cn
    rw [hu] at hl hth hqe
    refine ⟨c, hc, h.held_go (by rw [hu]; rfl) rfl rfl (fun _ => rfl) ⟨rfl, rfl⟩ (fun _ => h.trig (by rw [hu]; rfl)) (fun hx => by cases hx)
      (fun hx => by cases hx) hqe h.bar hth (fun hx => by rcases hx with hx | hx <;> cases hx) (fun hx => by cases hx) ⟨hl.1, hl.2.1, hl.2.2, ?_⟩ h.log⟩
    show (if cn = true then [] else f.queue) = if cn = true then [] else c.queue
    rw [h.queue (by rw [hu]; rfl)]
  | fnNotify hu =>
    rename_i cn
    rw [hu] at hl hth hqe
    obtain ⟨l1, l2, l3, l4⟩ := hl
    refine ⟨_, .user hc (.finalize (cancel := cn) (by rw [hqe, l1]; rfl) (by rw [h.log]; exact l2)), h.held_go (by rw [hu]; rfl) rfl rfl
      (fun t => wakeQ_held _) ⟨rfl, rfl⟩ (fun _ => h.trig (by rw [hu]; rfl)) (fun _ => l4.symm) (fun _ => l3.symm) hqe h.bar (fun t => ?_)
      (fun hx => by rcases hx with hx | hx <;> cases hx) (fun hx => by cases hx) l1 ?_⟩
    · show (c.thr t).wakeQ = (f.thr t).wakeQ.co false
      rw [wakeQ_co, hth t]; rfl
    · show _ :: c.log = _ :: f.log; rw [h.log]
  | unlock hu =>
    rw [hu] at hl
    exact ⟨c, hc, h.setUsr (.inr (.inr ⟨by rw [hu]; rfl, rfl, rfl⟩)) (by rw [hu]; exact ⟨rfl, rfl, rfl, rfl⟩) (by simp) hl⟩
  | dsLock hu ho =>
    rw [hu] at hl
    exact ⟨c, hc, h.setUsr (.inr (.inl ⟨ho, rfl, rfl⟩)) (by rw [hu]; exact ⟨rfl, rfl, rfl, rfl⟩) (by simp) hl⟩
  | dsQuit hu =>
    rw [hu] at hl hth hqe
    have hl : f.quit = false := hl
    have hq : c.quit = false := by rw [hqe, hl]; rfl
    refine ⟨c, hc, h.held_go (by rw [hu]; rfl) rfl rfl (fun _ => rfl) ⟨rfl, rfl⟩ (fun _ => h.trig (by rw [hu]; rfl)) (fun _ => h.queue (by rw [hu]; rfl))
      (fun _ => h.fin (by rw [hu]; rfl)) hq h.bar (fun t => ?_) (fun hx => by rcases hx with hx | hx <;> cases hx) (fun hx => by cases hx) rfl h.log⟩
    have h1 := hth t
    have h2 := no_done hc hq t
    rw [h1] at h2
    show c.thr t = (f.thr t).co true
    rw [h1]
    unfold GThr.co GThr.coPc at h2 ⊢
    cases hp : (f.thr t).pc <;> rw [hp] at h2 <;> first | rfl | exact absurd rfl h2
  | dsNotT hu =>
    rw [hu] at hl hth hqe
    refine ⟨_, wakeAllT hc (List.finRange N), h.held_go (by rw [hu]; rfl) rfl rfl (fun t => wakeT_held _) ⟨rfl, rfl⟩ (fun _ => h.trig (by rw [hu]; rfl))
      (fun _ => h.queue (by rw [hu]; rfl)) (fun _ => h.fin (by rw [hu]; rfl)) hqe h.bar (fun t => ?_) (fun _ t => wakeT_ne _) (fun hx => by cases hx) hl h.log⟩
    show (if t ∈ List.finRange N then (c.thr t).wakeT else c.thr t) = (f.thr t).wakeT.co true
    rw [if_pos (List.mem_finRange t), wakeT_co, hth t]; rfl
  | dsNotQ hu =>
    rw [hu] at hl hth hqe
    refine ⟨_, wakeAllQ hc (List.finRange N), h.held_go (by rw [hu]; rfl) rfl rfl (fun t => wakeQ_held _) ⟨rfl, rfl⟩ (fun _ => h.trig (by rw [hu]; rfl))
      (fun _ => h.queue (by rw [hu]; rfl)) (fun _ => h.fin (by rw [hu]; rfl)) hqe h.bar (fun t => ?_) (fun _ t => wakeQ_neT (h.awkT (.inl hu) t))
      (fun _ t => wakeQ_ne _) hl h.log⟩
    show (if t ∈ List.finRange N then (c.thr t).wakeQ else c.thr t) = (f.thr t).wakeQ.co true
    rw [if_pos (List.mem_finRange t), wakeQ_co, hth t]; rfl
  | dsIntr hu =>
    have a1 := h.awkT (.inr hu)
    have a2 := h.awkQ hu
    rw [hu] at hl hth hqe
    have hl : f.quit = true := hl
    have hq : c.quit = false := by rw [hqe]; simp [GUsr.dquit]
    have hd := DReach.user hc (.destroy hq)
    have hwk : ∀ t, (c.thr t).wakeT.wakeQ = c.thr t := by
      intro t
      rw [hth t]
      have h1 := a1 t
      have h2 := a2 t
      unfold GThr.co GThr.coPc DThr.wakeT DThr.wakeQ
      cases hp : (f.thr t).pc <;> first | rfl | exact absurd hp h1 | exact absurd hp h2
    have htop : ∀ t ∈ (List.finRange N).filter (fun t => (f.thr t).pc = .done), ((c.thr t).wakeT.wakeQ).pc = .top := by
      intro t ht
      have hp : (f.thr t).pc = .done := by simpa using ht
      rw [hwk t, hth t]
      simp [GThr.co, GThr.coPc, hp, GUsr.dquit]
    refine ⟨_, quitAll hd rfl _ htop, h.held_go (by rw [hu]; rfl) rfl rfl (fun _ => rfl) ⟨rfl, rfl⟩ (fun _ => h.trig (by rw [hu]; rfl))
      (fun _ => h.queue (by rw [hu]; rfl)) (fun _ => h.fin (by rw [hu]; rfl)) ?_ ?_ (fun t => ?_) (fun hx => by rcases hx with hx | hx <;> cases hx)
      (fun hx => by cases hx) hl ?_⟩
    · show true = (f.quit && true); rw [hl]; rfl
    · show c.bar.interrupt = f.bar.interrupt; rw [h.bar]
    · show (if t ∈ (List.finRange N).filter (fun t => (f.thr t).pc = .done) then { (c.thr t).wakeT.wakeQ with pc := .done } else (c.thr t).wakeT.wakeQ) =
        (f.thr t).co false
      rw [hwk t, hth t]
      by_cases hp : (f.thr t).pc = .done
      · rw [if_pos (by simpa using hp)]
        simp [GThr.co, GThr.coPc, hp]
      · rw [if_neg (by simpa using hp)]
        unfold GThr.co GThr.coPc
        cases hx : (f.thr t).pc <;> first | rfl | exact absurd hx hp
    · show _ :: c.log = _ :: f.log; rw [h.log]
  | dsUnlock hu =>
    rw [hu] at hl
    exact ⟨c, hc, h.setUsr (.inr (.inr ⟨by rw [hu]; rfl, rfl, rfl⟩)) (by rw [hu]; exact ⟨rfl, rfl, rfl, rfl⟩) (by simp) hl⟩

theorem simCall (h : GRel f c) {f' : GS N} (hs : GCall f f') : GRel f' c := by
  have hl := h.uloc
  cases hs with
  | start hu hm =>
    rw [hu] at hl
    exact h.setUsr (.inl ⟨rfl, by rw [hu]; rfl⟩) (by rw [hu]; exact ⟨rfl, rfl, rfl, rfl⟩) (by simp) ⟨hl, hm⟩
  | push hu hm =>
    rw [hu] at hl
    exact h.setUsr (.inl ⟨rfl, by rw [hu]; rfl⟩) (by rw [hu]; exact ⟨rfl, rfl, rfl, rfl⟩) (by simp) ⟨hl, hm⟩
  | finalize hu hm =>
    rw [hu] at hl
    exact h.setUsr (.inl ⟨rfl, by rw [hu]; rfl⟩) (by rw [hu]; exact ⟨rfl, rfl, rfl, rfl⟩) (by simp) ⟨hl, hm⟩
  | destroy hu =>
    rw [hu] at hl
    exact h.setUsr (.inl ⟨rfl, by rw [hu]; rfl⟩) (by rw [hu]; exact ⟨rfl, rfl, rfl, rfl⟩) (by simp) hl

theorem simSpurious (h : GRel f c) (hc : DReach c) {f' : GS N} (hs : GSpurious f f') : ∃ c', DReach c' ∧ GRel f' c' := by
  have wk : ∀ {t : Fin N} {p' : GPc} {q : DPc}, p'.held = false → (f.thr t).pc.held = false → p'.sleepy = false →
      GThr.coPc f.usr.dquit { f.thr t with pc := p' } = q → GRel (f.setPc t p') (c.setPc t q) := by
    intro t p' q h1 h2 h3 h4
    have := h.go (g := f.cb) (cbs := f.cbs) (b := f.bar) (t := t) (th := { f.thr t with pc := p' }) (.inl ⟨rfl, by rw [h2]; exact h1⟩)
      (same (by rw [GPc.derr_held h2, GPc.derr_held h1])) (GThr.loc_free h1) (fun hx => by rw [h3] at hx; cases hx) (.inl rfl)
    have e : ({ c.thr t with pc := q } : DThr) = GThr.co f.usr.dquit { f.thr t with pc := p' } := by
      rw [h.thr t]; simp only [GThr.co, h4]
    unfold DS.setPc
    rw [e]
    exact ⟨this.own, this.uown, this.trig, this.queue, this.err, this.fin, this.quit, h.bar, this.thr, this.awkT, this.awkQ, this.loc, this.uloc, h.log⟩
  cases hs with
  | cvT hp => exact ⟨_, .spurious hc (.cvT (by rw [h.cpc]; simp [GThr.coPc, hp])), wk rfl (by rw [hp]; rfl) rfl rfl⟩
  | cvQ hp => exact ⟨_, .spurious hc (.cvQ (by rw [h.cpc]; simp [GThr.coPc, hp])), wk rfl (by rw [hp]; rfl) rfl rfl⟩
  | bar hw =>
    rename_i t g
    refine ⟨_, .spurious hc (.bar (t := t) (g := g) (by rw [h.bar]; exact hw)), ?_⟩
    exact { h with bar := by show c.bar.spurious t = f.bar.spurious t; rw [h.bar] }

theorem init (p : Nat) : GRel (GS.init N p) (DS.init N) where
  own t := by simp [GS.init, GPc.held]
  uown := by simp [GS.init, GUsr.held]
  trig _ := rfl
  queue _ := rfl
  err _ := rfl
  fin _ := rfl
  quit := rfl
  bar := rfl
  thr _ := rfl
  awkT hx := by rcases hx with hx | hx <;> cases hx
  awkQ hx := by cases hx
  loc _ := trivial
  uloc := rfl
  log := rfl

end GRel

/-- Every state of the fine-grained stream is one of the coarse stream, but for the critical section under way. -/
theorem greach_rel {f : GS N} (h : GReach f) : ∃ c, DReach c ∧ GRel f c := by
  induction h with
  | init => exact ⟨_, .init, GRel.init _⟩
  | step _ hs ih =>
    obtain ⟨c, hc, hr⟩ := ih
    rcases hs with ⟨t, hs⟩ | hs
    · obtain ⟨c', hr', h1 | ⟨rfl, _⟩⟩ := hr.sim hs
      · exact ⟨c', .work hc h1, hr'⟩
      · exact ⟨c', hc, hr'⟩
    · exact hr.simUser hc hs
  | call _ hs ih =>
    obtain ⟨c, hc, hr⟩ := ih
    exact ⟨c, hc, hr.simCall hs⟩
  | spurious _ hs ih =>
    obtain ⟨c, hc, hr⟩ := ih
    exact hr.simSpurious hc hs

end Lib842
