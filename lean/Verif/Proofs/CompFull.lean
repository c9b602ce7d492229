import Verif.Model.CompFull
import Verif.Proofs.BarrierRefine
import Verif.Proofs.CompFine2
/-!
# The compression stream on the barrier, one access at a time, refines the one on the barrier with atomic critical sections

`XS.abs x`: the critical section of the barrier that a thread is in is brought to its end (`FBar.abs`).
-/

namespace Lib842
open Spec

variable {N : Nat} {k : Option Nat} {t : Fin N}

/-- The state of the model of C103 -/
def XS.abs (x : XS N) : FS N := { x.st with bar := x.bar.abs }

theorem fwork_bar {s s' : FS N} (h : FWork k t s s') (hb : (s.thr t).pc.atBar = false) (hnw : ∀ g, s.bar.wt t ≠ .awake g) (B : Bar N) :
    s'.bar = s.bar ∧ FWork k t { s with bar := B } { s' with bar := B } := by
  cases h with
  | topQuit h hq => exact ⟨rfl, .topQuit h hq⟩
  | topGo h hq => exact ⟨rfl, .topGo h hq⟩
  | trigLock h ho => exact ⟨rfl, .trigLock h ho⟩
  | trigNe h hp => exact ⟨rfl, .trigNe h hp⟩
  | trigEq h hp => exact ⟨rfl, .trigEq h hp⟩
  | trigQuit h hq => exact ⟨rfl, .trigQuit h hq⟩
  | trigWait h hq => exact ⟨rfl, .trigWait h hq⟩
  | trigRead h => exact ⟨rfl, .trigRead h⟩
  | trigUnlock h => exact ⟨rfl, .trigUnlock h⟩
  | enter h => exact ⟨rfl, .enter h⟩
  | fetch h => exact ⟨rfl, .fetch h⟩
  | count h => exact ⟨rfl, .count h⟩
  | epochArrive h => rw [h] at hb; cases hb
  | epochOut h hw => rw [h] at hb; cases hb
  | recheck hw => exact absurd hw (hnw _)
  | epochEnd h => exact ⟨rfl, .epochEnd h⟩
  | handleOk h => exact ⟨rfl, .handleOk h⟩
  | handleFail h => exact ⟨rfl, .handleFail h⟩
  | failLock h ho => exact ⟨rfl, .failLock h ho⟩
  | failRead h => exact ⟨rfl, .failRead h⟩
  | failErr h => exact ⟨rfl, .failErr h⟩
  | failCur h => exact ⟨rfl, .failCur h⟩
  | failUnlock h => exact ⟨rfl, .failUnlock h⟩
  | deliver h => exact ⟨rfl, .deliver h⟩
  | callDone h => exact ⟨rfl, .callDone h⟩
  | finLock h ho => exact ⟨rfl, .finLock h ho⟩
  | finTrue h hp => exact ⟨rfl, .finTrue h hp⟩
  | finFalse h hp => exact ⟨rfl, .finFalse h hp⟩
  | finQuit h hq => exact ⟨rfl, .finQuit h hq⟩
  | finWait h hq => exact ⟨rfl, .finWait h hq⟩
  | finUnlock h => exact ⟨rfl, .finUnlock h⟩
  | finArrive h => rw [h] at hb; cases hb
  | finOut h hw => rw [h] at hb; cases hb
  | rLock h ho => exact ⟨rfl, .rLock h ho⟩
  | rQuit h => exact ⟨rfl, .rQuit h⟩
  | rSize h => exact ⟨rfl, .rSize h⟩
  | rCur h => exact ⟨rfl, .rCur h⟩
  | rErr h => exact ⟨rfl, .rErr h⟩
  | rErrSet h => exact ⟨rfl, .rErrSet h⟩
  | rFin h => exact ⟨rfl, .rFin h⟩
  | rUnlock h => exact ⟨rfl, .rUnlock h⟩
  | rUnlockQuit h => exact ⟨rfl, .rUnlockQuit h⟩
  | callback h => exact ⟨rfl, .callback h⟩
  | callbackDone h => exact ⟨rfl, .callbackDone h⟩

theorem fuser_bar {s s' : FS N} (h : FUser s s') (hb : s.usr ≠ .dsIntr ∧ s.usr ≠ .dsUnlock) (B : Bar N) :
    s'.bar = s.bar ∧ FUser { s with bar := B } { s' with bar := B } := by
  cases h with
  | stSize h => exact ⟨rfl, .stSize h⟩
  | stLock h ho => exact ⟨rfl, .stLock h ho⟩
  | stTrig h => exact ⟨rfl, .stTrig h⟩
  | stNotify h => exact ⟨rfl, .stNotify h⟩
  | fnLock h ho => exact ⟨rfl, .fnLock h ho⟩
  | fnFlag h => exact ⟨rfl, .fnFlag h⟩
  | fnCur h => exact ⟨rfl, .fnCur h⟩
  | fnNotify h => exact ⟨rfl, .fnNotify h⟩
  | unlock h => exact ⟨rfl, .unlock h⟩
  | dsLock h ho => exact ⟨rfl, .dsLock h ho⟩
  | dsQuit h => exact ⟨rfl, .dsQuit h⟩
  | dsCur h => exact ⟨rfl, .dsCur h⟩
  | dsNotify h => exact ⟨rfl, .dsNotify h⟩
  | dsIntr h => exact absurd h hb.1
  | dsUnlock h => exact absurd h hb.2

theorem fcall_bar {s s' : FS N} (h : FCall s s') (B : Bar N) : s'.bar = s.bar ∧ FCall { s with bar := B } { s' with bar := B } := by
  cases h with
  | start hi hm hs => exact ⟨rfl, .start hi hm hs⟩
  | finalize hi hm => exact ⟨rfl, .finalize hi hm⟩
  | destroy hi => exact ⟨rfl, .destroy hi⟩

theorem fwork_thr {s s' : FS N} (h : FWork k t s s') {u : Fin N} (hu : u ≠ t) : s'.thr u = s.thr u := by
  cases h <;> first | rfl | exact Function.update_of_ne hu _ _

theorem fwake_inBar (th : FThr) (h : th.pc.inBar = true) : th.wake = th := by
  unfold FThr.wake
  split <;> first | rfl | (rename_i h1; rw [h1] at h; cases h)

theorem fuser_thr {s s' : FS N} (h : FUser s s') {u : Fin N} (hu : (s.thr u).pc.inBar = true) : s'.thr u = s.thr u := by
  cases h <;> first | rfl | exact fwake_inBar _ hu 

/-- What holds in every state -/
structure XInv (x : XS N) : Prop where
  reach : x.bar.Reach
  thr : ∀ t, x.bar.pc t ≠ .out → (x.st.thr t).pc.inBar = true
  usr : x.bar.ipc 0 ≠ .out → x.st.usr = .dsUnlock
  ini : x.st.bar = Bar.init N

theorem XInv.noawake {x : XS N} (h : XInv x) (t : Fin N) : ∀ g, x.st.bar.wt t ≠ .awake g := by
  intro g hg
  rw [h.ini] at hg
  cases hg

theorem xinv_init : XInv (XS.init N) := ⟨.init, fun t h => absurd rfl h, fun h => absurd rfl h, rfl⟩

theorem fpc_inBar_atBar {p : FPc} (h : p.inBar = true) : p.atBar = true := by
  cases p <;> first | rfl | cases h

theorem fwork_inBar {s s' : FS N} (h : FWork k t s s') (hz : (s.thr t).pc.inBar = true) : s.bar.wt t = .out ∨ ∃ g, s.bar.wt t = .awake g := by
  cases h with
  | topQuit h hq => rw [h] at hz; cases hz
  | topGo h hq => rw [h] at hz; cases hz
  | trigLock h ho => rcases h with h | h <;> (rw [h] at hz; cases hz)
  | trigNe h hp => rw [h] at hz; cases hz
  | trigEq h hp => rw [h] at hz; cases hz
  | trigQuit h hq => rw [h] at hz; cases hz
  | trigWait h hq => rw [h] at hz; cases hz
  | trigRead h => rw [h] at hz; cases hz
  | trigUnlock h => rw [h] at hz; cases hz
  | enter h => rw [h] at hz; cases hz
  | fetch h => rw [h] at hz; cases hz
  | count h => rw [h] at hz; cases hz
  | epochArrive h => rw [h] at hz; cases hz
  | epochOut h hw => exact .inl hw
  | recheck hw => exact .inr ⟨_, hw⟩
  | epochEnd h => rw [h] at hz; cases hz
  | handleOk h => rw [h] at hz; cases hz
  | handleFail h => rw [h] at hz; cases hz
  | failLock h ho => rw [h] at hz; cases hz
  | failRead h => rw [h] at hz; cases hz
  | failErr h => rw [h] at hz; cases hz
  | failCur h => rw [h] at hz; cases hz
  | failUnlock h => rw [h] at hz; cases hz
  | deliver h => rw [h] at hz; cases hz
  | callDone h => rw [h] at hz; cases hz
  | finLock h ho => rcases h with h | h <;> (rw [h] at hz; cases hz)
  | finTrue h hp => rw [h] at hz; cases hz
  | finFalse h hp => rw [h] at hz; cases hz
  | finQuit h hq => rw [h] at hz; cases hz
  | finWait h hq => rw [h] at hz; cases hz
  | finUnlock h => rw [h] at hz; cases hz
  | finArrive h => rw [h] at hz; cases hz
  | finOut h hw => exact .inl hw
  | rLock h ho => rw [h] at hz; cases hz
  | rQuit h => rw [h] at hz; cases hz
  | rSize h => rw [h] at hz; cases hz
  | rCur h => rw [h] at hz; cases hz
  | rErr h => rw [h] at hz; cases hz
  | rErrSet h => rw [h] at hz; cases hz
  | rFin h => rw [h] at hz; cases hz
  | rUnlock h => rw [h] at hz; cases hz
  | rUnlockQuit h => rw [h] at hz; cases hz
  | callback h => rw [h] at hz; cases hz
  | callbackDone h => rw [h] at hz; cases hz

/-- A thread that arrives -/
theorem XInv.arrive {x : XS N} (h : XInv x) {p : FPc} (hn : (x.st.thr t).pc.inBar = false) (hp : p.inBar = true) (ho : x.bar.owner = none) :
    XInv { st := x.st.setPc t p, bar := { x.bar with
      owner := some (.inl t), pc := Function.update x.bar.pc t .locked, arr := Function.update x.bar.arr t (x.bar.arr t + 1) } } ∧ x.bar.pc t = .out := by
  have hout : x.bar.pc t = .out := by
    by_cases hq : x.bar.pc t = .out
    · exact hq
    · rw [h.thr t hq] at hn; cases hn
  refine ⟨⟨h.reach.step (.lock hout ho), fun u hu => ?_, h.usr, h.ini⟩, hout⟩
  by_cases hut : u = t
  · subst hut
    show (Function.update x.st.thr u _ u).pc.inBar = true
    rw [Function.update_self]; exact hp
  · show (Function.update x.st.thr t _ u).pc.inBar = true
    rw [Function.update_of_ne hut]
    refine h.thr u ?_
    have : Function.update x.bar.pc t BarPc.locked u ≠ .out := hu
    rwa [Function.update_of_ne hut] at this

theorem XInv.leave {x : XS N} (h : XInv x) {p : FPc} (hw : x.bar.pc t = .out) : XInv { x with st := x.st.setPc t p } := by
  refine ⟨h.reach, fun u hu => ?_, h.usr, h.ini⟩
  have hut : u ≠ t := by rintro rfl; exact hu hw
  show (Function.update x.st.thr t _ u).pc.inBar = true
  rw [Function.update_of_ne hut]
  exact h.thr u hu

/-- A step of the stream, outside the barrier -/
theorem XInv.own {x : XS N} (h : XInv x) {s : FS N} (hb : (x.st.thr t).pc.atBar = false) (hs : FWork k t x.st s) : XInv { x with st := s } := by
  refine ⟨h.reach, fun u hu => ?_, fun hi => ?_, ?_⟩
  · have h1 := h.thr u hu
    have hut : u ≠ t := by
      rintro rfl
      rw [fpc_inBar_atBar h1] at hb; cases hb
    show (s.thr u).pc.inBar = true
    rw [fwork_thr hs hut]
    exact h1
  · show s.usr = _
    rw [fwork_usr hs]
    exact h.usr hi
  · show s.bar = _
    rw [(fwork_bar hs hb (h.noawake t) (Bar.init N)).1, h.ini]

theorem xinv_step {x x' : XS N} (h : XInv x) (hs : XStep k x x') : XInv x' := by
  cases hs with
  | work hw =>
    cases hw with
    | own hb hs => exact h.own hb hs
    | epochArrive hp ho => exact (h.arrive (by rw [hp]; rfl) rfl ho).1
    | epochOut hp hw => exact h.leave hw
    | finArrive hp ho => exact (h.arrive (by rw [hp]; rfl) rfl ho).1
    | finOut hp hw => exact h.leave hw
  | user hu =>
    cases hu with
    | own hb hs =>
      refine ⟨h.reach, fun u hu => ?_, fun hi => absurd (h.usr hi) hb.2, ?_⟩
      · have h1 := h.thr u hu
        rw [← fuser_thr hs h1] at h1
        exact h1
      · exact (fuser_bar hs hb (Bar.init N)).1.trans h.ini
    | intr hp ho =>
      have hout : x.bar.ipc 0 = .out := by
        by_cases hq : x.bar.ipc 0 = .out
        · exact hq
        · rw [h.usr hq] at hp; cases hp
      exact ⟨h.reach.step (.intLock hout ho), h.thr, fun _ => rfl, h.ini⟩
    | unlock hp hi => exact ⟨h.reach, h.thr, fun hq => absurd hi hq, h.ini⟩
  | bar hq =>
    exact ⟨h.reach.step hq.1, fun t ht => h.thr t fun h1 => ht (hq.2.1 t h1), fun hi => h.usr fun h1 => hi (hq.2.2.1 0 h1), h.ini⟩

/-- Every step is a step of the model of C103, or nothing there, and then closer to the end of the calls of the barrier that are under way. -/
theorem xstep_abs {x x' : XS N} (h : XInv x) (hs : XStep k x x') : FStep k x.abs x'.abs ∨ (x'.abs = x.abs ∧ x'.bar.weight < x.bar.weight) := by
  cases hs with
  | @work t _ hw =>
    left; left; refine ⟨t, ?_⟩
    cases hw with
    | own hb hs => exact (fwork_bar hs hb (h.noawake t) x.bar.abs).2
    | @epochArrive r hp ho =>
      have hout := (h.arrive (t := t) (p := .epochIn r) (by rw [hp]; rfl) rfl ho).2
      have := FWork.epochArrive (k := k) (s := x.abs) (t := t) hp
      show FWork k t x.abs { (x.st.setPc t (.epochIn r)) with bar := FBar.abs _ }
      rw [FBar.abs_lock hout ho]
      exact this
    | epochOut hp hw => exact FWork.epochOut (k := k) (s := x.abs) (t := t) hp (FBar.abs_out hw h.reach.own)
    | finArrive hp ho =>
      have hout := (h.arrive (t := t) (p := .finIn) (by rw [hp]; rfl) rfl ho).2
      have := FWork.finArrive (k := k) (s := x.abs) (t := t) hp
      show FWork k t x.abs { (x.st.setPc t .finIn) with bar := FBar.abs _ }
      rw [FBar.abs_lock hout ho]
      exact this
    | finOut hp hw => exact FWork.finOut (k := k) (s := x.abs) (t := t) hp (FBar.abs_out hw h.reach.own)
  | user hu =>
    left; right
    cases hu with
    | own hb hs => exact (fuser_bar hs hb x.bar.abs).2
    | intr hp ho =>
      have := FUser.dsIntr (s := x.abs) hp
      show FUser x.abs { x.st with usr := .dsUnlock, bar := FBar.abs _ }
      rw [FBar.abs_intLock ho]
      exact this
    | unlock hp hi => exact FUser.dsUnlock (s := x.abs) hp
  | @bar b hq =>
    rcases FBar.abs_quiet h.reach.own hq with h1 | ⟨t, g, h1, h2⟩
    · right
      refine ⟨?_, FBar.weight_lt hq⟩
      show { x.st with bar := b.abs } = x.abs
      rw [h1]; rfl
    · left; left
      refine ⟨t, ?_⟩
      have := FWork.recheck (k := k) (s := x.abs) (t := t) h1
      show FWork k t x.abs { x.st with bar := b.abs }
      rw [h2]
      exact this

theorem xcall_inv {x : XS N} {s : FS N} (h : XInv x) (hs : FCall x.st s) : XInv { x with st := s } := by
  have hi := (fcall_bar hs (Bar.init N)).1.trans h.ini
  have hu : x.bar.ipc 0 = .out := by
    by_cases hq : x.bar.ipc 0 = .out
    · exact hq
    · have := h.usr hq
      cases hs <;> simp_all
  refine ⟨h.reach, fun t ht => ?_, fun hq => absurd hu hq, hi⟩
  have := h.thr t ht
  cases hs <;> exact this

theorem xspur_inv {x x' : XS N} (h : XInv x) (hs : XSpurious x x') : XInv x' := by
  have key : ∀ (t : Fin N) (th : FThr), (x.st.thr t).pc.inBar = false → XInv { x with st := x.st.setThr t th } := by
    intro t th hp
    refine ⟨h.reach, fun u hu => ?_, h.usr, h.ini⟩
    have h1 := h.thr u hu
    have hut : u ≠ t := by rintro rfl; rw [h1] at hp; cases hp
    show (Function.update x.st.thr t _ u).pc.inBar = true
    rw [Function.update_of_ne hut]
    exact h1
  cases hs with
  | @cv t hp => exact key t _ (by rcases hp with hp | hp <;> rw [hp] <;> rfl)
  | @bar t g hp =>
    refine ⟨h.reach.step (.spurious hp), fun u hu => ?_, h.usr, h.ini⟩
    by_cases hut : u = t
    · subst hut; exact h.thr u (by rw [hp]; simp)
    · refine h.thr u ?_
      have : Function.update x.bar.pc t (BarPc.woken g) u ≠ .out := hu
      rwa [Function.update_of_ne hut] at this

theorem xreach_abs {x : XS N} (h : XReach k x) : XInv x ∧ FReach k x.abs := by
  induction h with
  | init =>
    refine ⟨xinv_init, ?_⟩
    exact FReach.init
  | step _ hs ih =>
    obtain ⟨hi, hr⟩ := ih
    refine ⟨xinv_step hi hs, ?_⟩
    rcases xstep_abs hi hs with h1 | ⟨h1, _⟩
    · exact hr.step h1
    · rw [h1]; exact hr
  | call _ hs ih =>
    obtain ⟨hi, hr⟩ := ih
    exact ⟨xcall_inv hi hs, hr.call (fcall_bar hs _).2⟩
  | @spurious x _ _ hs ih =>
    obtain ⟨hi, hr⟩ := ih
    refine ⟨xspur_inv hi hs, ?_⟩
    cases hs with
    | cv hp => exact hr.spurious (FSpurious.cv (s := x.abs) hp)
    | @bar t g hp =>
      rcases FBar.abs_spurious hi.reach.own hp with h1 | ⟨h1, h2⟩
      · show FReach k { x.st with bar := FBar.abs _ }
        rw [h1]; exact hr
      · have := FSpurious.bar (s := x.abs) h1
        show FReach k { x.st with bar := FBar.abs _ }
        rw [h2]
        exact hr.spurious this

/-- If nothing can happen, nothing can happen in the model of C103. -/
theorem xstuck_abs {x : XS N} (h : XInv x) (hno : ∀ x', ¬ XStep k x x') : ∀ f', ¬ FStep k x.abs f' := by
  obtain ⟨ho, hpc, hip⟩ := FBar.progress h.reach fun b hq => hno _ (.bar hq)
  have hb : x.bar.abs = x.bar.base := FBar.abs_none ho
  have hnw : ∀ t g, x.abs.bar.wt t ≠ .awake g := by
    intro t g hg
    have hg' : x.bar.abs.wt t = .awake g := hg
    rw [hb] at hg'
    have hg2 : (x.bar.pc t).co = .awake g := hg'
    rcases hpc t with h1 | ⟨g', h1⟩ <;> rw [h1] at hg2 <;> cases hg2
  have hout : ∀ t, x.abs.bar.wt t = .out → x.bar.pc t = .out := by
    intro t hw
    have hw' : x.bar.abs.wt t = .out := hw
    rw [hb] at hw'
    have hw2 : (x.bar.pc t).co = .out := hw'
    rcases hpc t with h1 | ⟨g', h1⟩
    · exact h1
    · rw [h1] at hw2; cases hw2
  rintro f' (⟨t, hw⟩ | hu)
  · by_cases hab : (x.st.thr t).pc.atBar = true
    · have hcs : (∃ r, (x.st.thr t).pc = .epoch (r + 1)) ∨ (∃ r, (x.st.thr t).pc = .epochIn r) ∨ (x.st.thr t).pc = .finArr ∨ (x.st.thr t).pc = .finIn := by
        revert hab
        cases (x.st.thr t).pc with
        | epoch r => cases r with
          | zero => intro h; cases h
          | succ r => intro _; exact .inl ⟨r, rfl⟩
        | epochIn r => intro _; exact .inr (.inl ⟨r, rfl⟩)
        | finArr => intro _; exact .inr (.inr (.inl rfl))
        | finIn => intro _; exact .inr (.inr (.inr rfl))
        | _ => intro h; cases h
      rcases hcs with ⟨r, hp⟩ | ⟨r, hp⟩ | hp | hp
      · exact hno _ (.work (.epochArrive hp ho))
      · rcases fwork_inBar hw (by show (x.st.thr t).pc.inBar = true; rw [hp]; rfl) with h1 | ⟨g, h1⟩
        · exact hno _ (.work (.epochOut hp (hout t h1)))
        · exact hnw t g h1
      · exact hno _ (.work (.finArrive hp ho))
      · rcases fwork_inBar hw (by show (x.st.thr t).pc.inBar = true; rw [hp]; rfl) with h1 | ⟨g, h1⟩
        · exact hno _ (.work (.finOut hp (hout t h1)))
        · exact hnw t g h1
    · have hab' : (x.st.thr t).pc.atBar = false := by simpa using hab
      exact hno _ (.work (.own hab' (fwork_bar hw hab' (hnw t) x.st.bar).2))
  · by_cases h1 : x.st.usr = .dsIntr
    · exact hno _ (.user (.intr h1 ho))
    · by_cases h2 : x.st.usr = .dsUnlock
      · exact hno _ (.user (.unlock h2 (hip 0)))
      · exact hno _ (.user (.own ⟨h1, h2⟩ (fuser_bar hu ⟨h1, h2⟩ x.st.bar).2))

theorem xstep_acc_aux {f : FS N} (ha : Acc (fun f' f => FStep k f f') f) : ∀ n (x : XS N), x.abs = f → x.bar.weight = n → XReach k x →
    Acc (fun x' x => XStep k x x') x := by
  induction ha with
  | intro f _ ih =>
    intro n
    induction n using Nat.strongRecOn with
    | ind n ihn =>
      intro x hx hn hr
      refine .intro _ fun x' hs => ?_
      rcases xstep_abs (xreach_abs hr).1 hs with h1 | ⟨h1, h2⟩
      · exact ih x'.abs (hx ▸ h1) _ x' rfl rfl (.step hr hs)
      · exact ihn x'.bar.weight (hn ▸ h2) x' (h1.trans hx) rfl (.step hr hs)

/-- What is inevitable in the model of C103 is inevitable. -/
theorem x_inevitable {P : FS N → Prop} {f : FS N} (hi : Inevitable (FStep k) P f) : ∀ n (x : XS N), x.abs = f → x.bar.weight = n →
    XReach k x → Inevitable (XStep k) (fun x => P x.abs) x := by
  induction hi with
  | now hp => intro n x hx _ _; exact .now (hx ▸ hp)
  | @later f hex _ ih =>
    intro n
    induction n using Nat.strongRecOn with
    | ind n ihn =>
      intro x hx hn hr
      have hinv := (xreach_abs hr).1
      refine .later ?_ fun x' hs => ?_
      · by_cases hn : ∃ x', XStep k x x'
        · exact hn
        · obtain ⟨f', hf⟩ := hex
          exact absurd (hx ▸ hf) (xstuck_abs hinv (fun x' hs => hn ⟨x', hs⟩) f')
      · rcases xstep_abs hinv hs with h1 | ⟨h1, h2⟩
        · exact ih x'.abs (hx ▸ h1) _ x' rfl rfl (.step hr hs)
        · exact ihn x'.bar.weight (hn ▸ h2) x' (h1.trans hx) rfl (.step hr hs)

end Lib842
