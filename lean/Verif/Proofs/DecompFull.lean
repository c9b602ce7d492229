import Verif.Model.DecompFull
import Verif.Proofs.BarrierRefine
import Verif.Proofs.DecompFine2
/-!
# The decompression stream on the barrier, one access at a time, refines the one on the barrier with atomic critical sections

`YS.abs x`: the critical section of the barrier that a thread is in is brought to its end (`FBar.abs`).
-/

namespace Lib842
open Spec

variable {N : Nat} {t : Fin N}

/-- The state of the model of C104 -/
def YS.abs (x : YS N) : GS N := { x.st with bar := x.bar.abs }

theorem gwork_bar {s s' : GS N} (h : GWork t s s') (hb : (s.thr t).pc.atBar = false) (hnw : ∀ g, s.bar.wt t ≠ .awake g) (B : Bar N) :
    s'.bar = s.bar ∧ GWork t { s with bar := B } { s' with bar := B } := by
  cases h with
  | topQuit h hq => exact ⟨rfl, .topQuit h hq⟩
  | topGo h hq => exact ⟨rfl, .topGo h hq⟩
  | trigLock h ho => exact ⟨rfl, .trigLock h ho⟩
  | trigNe h hp => exact ⟨rfl, .trigNe h hp⟩
  | trigEq h hp => exact ⟨rfl, .trigEq h hp⟩
  | trigQuit h hq => exact ⟨rfl, .trigQuit h hq⟩
  | trigWait h hq => exact ⟨rfl, .trigWait h hq⟩
  | trigRead h => exact ⟨rfl, .trigRead h⟩
  | trigUnlock h => exact ⟨rfl, .trigUnlock h⟩
  | popLock h ho => exact ⟨rfl, .popLock h ho⟩
  | popEmpty h => exact ⟨rfl, .popEmpty h⟩
  | popFin h => exact ⟨rfl, .popFin h⟩
  | popQuit h hq => exact ⟨rfl, .popQuit h hq⟩
  | popWait h hq => exact ⟨rfl, .popWait h hq⟩
  | brkFin h => exact ⟨rfl, .brkFin h⟩
  | brkEmpty h => exact ⟨rfl, .brkEmpty h⟩
  | brkQuit h => exact ⟨rfl, .brkQuit h⟩
  | popFront h hq => exact ⟨rfl, .popFront h hq⟩
  | popPop h => exact ⟨rfl, .popPop h⟩
  | popUnlock h => exact ⟨rfl, .popUnlock h⟩
  | brkUnlock h => exact ⟨rfl, .brkUnlock h⟩
  | handleOk h => exact ⟨rfl, .handleOk h⟩
  | handleFail h => exact ⟨rfl, .handleFail h⟩
  | failLock h ho => exact ⟨rfl, .failLock h ho⟩
  | failRead h => exact ⟨rfl, .failRead h⟩
  | failErr h => exact ⟨rfl, .failErr h⟩
  | failQueue h => exact ⟨rfl, .failQueue h⟩
  | failUnlock h => exact ⟨rfl, .failUnlock h⟩
  | finArrive h => rw [h] at hb; cases hb
  | recheck hw => exact absurd hw (hnw _)
  | finOut h hw => rw [h] at hb; cases hb
  | rLock h ho => exact ⟨rfl, .rLock h ho⟩
  | rQuit h => exact ⟨rfl, .rQuit h⟩
  | rErr h => exact ⟨rfl, .rErr h⟩
  | rErrSet h => exact ⟨rfl, .rErrSet h⟩
  | rFin h => exact ⟨rfl, .rFin h⟩
  | rCb h => exact ⟨rfl, .rCb h⟩
  | rCbClear h => exact ⟨rfl, .rCbClear h⟩
  | rUnlock h => exact ⟨rfl, .rUnlock h⟩
  | rUnlockQuit h => exact ⟨rfl, .rUnlockQuit h⟩
  | callback h => exact ⟨rfl, .callback h⟩
  | callbackDone h => exact ⟨rfl, .callbackDone h⟩

theorem guser_bar {s s' : GS N} (h : GUser s s') (hb : s.usr ≠ .dsIntr ∧ s.usr ≠ .dsUnlock) (B : Bar N) :
    s'.bar = s.bar ∧ GUser { s with bar := B } { s' with bar := B } := by
  cases h with
  | stPtr h => exact ⟨rfl, .stPtr h⟩
  | stLock h ho => exact ⟨rfl, .stLock h ho⟩
  | stTrig h => exact ⟨rfl, .stTrig h⟩
  | stNotify h => exact ⟨rfl, .stNotify h⟩
  | puLock h ho => exact ⟨rfl, .puLock h ho⟩
  | puAssert h => exact ⟨rfl, .puAssert h⟩
  | puRefuse h he => exact ⟨rfl, .puRefuse h he⟩
  | puAccept h he => exact ⟨rfl, .puAccept h he⟩
  | puPush h => exact ⟨rfl, .puPush h⟩
  | puNone h hn => exact ⟨rfl, .puNone h hn⟩
  | puWake h hn => exact ⟨rfl, .puWake h hn⟩
  | fnLock h ho => exact ⟨rfl, .fnLock h ho⟩
  | fnFlag h => exact ⟨rfl, .fnFlag h⟩
  | fnCb h => exact ⟨rfl, .fnCb h⟩
  | fnQueue h => exact ⟨rfl, .fnQueue h⟩
  | fnNotify h => exact ⟨rfl, .fnNotify h⟩
  | unlock h => exact ⟨rfl, .unlock h⟩
  | dsLock h ho => exact ⟨rfl, .dsLock h ho⟩
  | dsQuit h => exact ⟨rfl, .dsQuit h⟩
  | dsNotT h => exact ⟨rfl, .dsNotT h⟩
  | dsNotQ h => exact ⟨rfl, .dsNotQ h⟩
  | dsIntr h => exact absurd h hb.1
  | dsUnlock h => exact absurd h hb.2

theorem gcall_bar {s s' : GS N} (h : GCall s s') (B : Bar N) : s'.bar = s.bar ∧ GCall { s with bar := B } { s' with bar := B } := by
  cases h with
  | start hi hm => exact ⟨rfl, .start hi hm⟩
  | push hi hm => exact ⟨rfl, .push hi hm⟩
  | finalize hi hm => exact ⟨rfl, .finalize hi hm⟩
  | destroy hi => exact ⟨rfl, .destroy hi⟩

theorem gwork_thr {s s' : GS N} (h : GWork t s s') {u : Fin N} (hu : u ≠ t) : s'.thr u = s.thr u := by
  cases h <;> first | rfl | exact Function.update_of_ne hu _ _

/-- In `arrive_and_wait` -/
def GPc.inBar : GPc → Bool
  | .finIn => true
  | _ => false

theorem gwake_inBarT (th : GThr) (h : th.pc.inBar = true) : th.wakeT = th := by
  unfold GThr.wakeT
  split <;> first | rfl | (rename_i h1; rw [h1] at h; cases h)

theorem gwake_inBarQ (th : GThr) (h : th.pc.inBar = true) : th.wakeQ = th := by
  unfold GThr.wakeQ
  split <;> first | rfl | (rename_i h1; rw [h1] at h; cases h)

theorem guser_thr {s s' : GS N} (h : GUser s s') {u : Fin N} (hu : (s.thr u).pc.inBar = true) : s'.thr u = s.thr u := by
  cases h <;> first | rfl | exact gwake_inBarT _ hu | exact gwake_inBarQ _ hu | (refine Function.update_of_ne ?_ _ _; rintro rfl; rename_i h1; rw [h1] at hu; cases hu)

/-- What holds in every state -/
structure YInv (x : YS N) : Prop where
  reach : x.bar.Reach
  thr : ∀ t, x.bar.pc t ≠ .out → (x.st.thr t).pc.inBar = true
  usr : x.bar.ipc 0 ≠ .out → x.st.usr = .dsUnlock
  ini : x.st.bar = Bar.init N

theorem YInv.noawake {x : YS N} (h : YInv x) (t : Fin N) : ∀ g, x.st.bar.wt t ≠ .awake g := by
  intro g hg
  rw [h.ini] at hg
  cases hg

theorem yinv_init {p : Nat} : YInv (YS.init N p) := ⟨.init, fun t h => absurd rfl h, fun h => absurd rfl h, rfl⟩

theorem gpc_inBar_atBar {p : GPc} (h : p.inBar = true) : p.atBar = true := by
  cases p <;> first | rfl | cases h

theorem gwork_inBar {s s' : GS N} (h : GWork t s s') (hz : (s.thr t).pc.inBar = true) : s.bar.wt t = .out ∨ ∃ g, s.bar.wt t = .awake g := by
  cases h with
  | topQuit h hq => rw [h] at hz; cases hz
  | topGo h hq => rw [h] at hz; cases hz
  | trigLock h ho => rcases h with h | h <;> (rw [h] at hz; cases hz)
  | trigNe h hp => rw [h] at hz; cases hz
  | trigEq h hp => rw [h] at hz; cases hz
  | trigQuit h hq => rw [h] at hz; cases hz
  | trigWait h hq => rw [h] at hz; cases hz
  | trigRead h => rw [h] at hz; cases hz
  | trigUnlock h => rw [h] at hz; cases hz
  | popLock h ho => rcases h with h | h <;> (rw [h] at hz; cases hz)
  | popEmpty h => rw [h] at hz; cases hz
  | popFin h => rw [h] at hz; cases hz
  | popQuit h hq => rw [h] at hz; cases hz
  | popWait h hq => rw [h] at hz; cases hz
  | brkFin h => rw [h] at hz; cases hz
  | brkEmpty h => rw [h] at hz; cases hz
  | brkQuit h => rw [h] at hz; cases hz
  | popFront h hq => rw [h] at hz; cases hz
  | popPop h => rw [h] at hz; cases hz
  | popUnlock h => rw [h] at hz; cases hz
  | brkUnlock h => rw [h] at hz; cases hz
  | handleOk h => rw [h] at hz; cases hz
  | handleFail h => rw [h] at hz; cases hz
  | failLock h ho => rw [h] at hz; cases hz
  | failRead h => rw [h] at hz; cases hz
  | failErr h => rw [h] at hz; cases hz
  | failQueue h => rw [h] at hz; cases hz
  | failUnlock h => rw [h] at hz; cases hz
  | finArrive h => rw [h] at hz; cases hz
  | recheck hw => exact .inr ⟨_, hw⟩
  | finOut h hw => exact .inl hw
  | rLock h ho => rw [h] at hz; cases hz
  | rQuit h => rw [h] at hz; cases hz
  | rErr h => rw [h] at hz; cases hz
  | rErrSet h => rw [h] at hz; cases hz
  | rFin h => rw [h] at hz; cases hz
  | rCb h => rw [h] at hz; cases hz
  | rCbClear h => rw [h] at hz; cases hz
  | rUnlock h => rw [h] at hz; cases hz
  | rUnlockQuit h => rw [h] at hz; cases hz
  | callback h => rw [h] at hz; cases hz
  | callbackDone h => rw [h] at hz; cases hz

/-- A thread that arrives -/
theorem YInv.arrive {x : YS N} (h : YInv x) {p : GPc} (hn : (x.st.thr t).pc.inBar = false) (hp : p.inBar = true) (ho : x.bar.owner = none) :
    YInv { st := x.st.setPc t p, bar := { x.bar with
      owner := some (.inl t), pc := Function.update x.bar.pc t .locked, arr := Function.update x.bar.arr t (x.bar.arr t + 1) } } ∧ x.bar.pc t = .out := by
  have hout : x.bar.pc t = .out := by
    by_cases hq : x.bar.pc t = .out
    · exact hq
    · rw [h.thr t hq] at hn; cases hn
  refine ⟨⟨h.reach.step (.lock hout ho), fun u hu => ?_, h.usr, h.ini⟩, hout⟩
  by_cases hut : u = t
  · subst hut
    show (Function.update x.st.thr u _ u).pc.inBar = true
    rw [Function.update_self]; exact hp
  · show (Function.update x.st.thr t _ u).pc.inBar = true
    rw [Function.update_of_ne hut]
    refine h.thr u ?_
    have : Function.update x.bar.pc t BarPc.locked u ≠ .out := hu
    rwa [Function.update_of_ne hut] at this

theorem YInv.leave {x : YS N} (h : YInv x) {p : GPc} (hw : x.bar.pc t = .out) : YInv { x with st := x.st.setPc t p } := by
  refine ⟨h.reach, fun u hu => ?_, h.usr, h.ini⟩
  have hut : u ≠ t := by rintro rfl; exact hu hw
  show (Function.update x.st.thr t _ u).pc.inBar = true
  rw [Function.update_of_ne hut]
  exact h.thr u hu

/-- A step of the stream, outside the barrier -/
theorem YInv.own {x : YS N} (h : YInv x) {s : GS N} (hb : (x.st.thr t).pc.atBar = false) (hs : GWork t x.st s) : YInv { x with st := s } := by
  refine ⟨h.reach, fun u hu => ?_, fun hi => ?_, ?_⟩
  · have h1 := h.thr u hu
    have hut : u ≠ t := by
      rintro rfl
      rw [gpc_inBar_atBar h1] at hb; cases hb
    show (s.thr u).pc.inBar = true
    rw [gwork_thr hs hut]
    exact h1
  · show s.usr = _
    rw [(gwork_usr hs).1]
    exact h.usr hi
  · show s.bar = _
    rw [(gwork_bar hs hb (h.noawake t) (Bar.init N)).1, h.ini]

theorem yinv_step {x x' : YS N} (h : YInv x) (hs : YStep x x') : YInv x' := by
  cases hs with
  | work hw =>
    cases hw with
    | own hb hs => exact h.own hb hs

    | finArrive hp ho => exact (h.arrive (by rw [hp]; rfl) rfl ho).1
    | finOut hp hw => exact h.leave hw
  | user hu =>
    cases hu with
    | own hb hs =>
      refine ⟨h.reach, fun u hu => ?_, fun hi => absurd (h.usr hi) hb.2, ?_⟩
      · have h1 := h.thr u hu
        rw [← guser_thr hs h1] at h1
        exact h1
      · exact (guser_bar hs hb (Bar.init N)).1.trans h.ini
    | intr hp ho =>
      have hout : x.bar.ipc 0 = .out := by
        by_cases hq : x.bar.ipc 0 = .out
        · exact hq
        · rw [h.usr hq] at hp; cases hp
      exact ⟨h.reach.step (.intLock hout ho), h.thr, fun _ => rfl, h.ini⟩
    | unlock hp hi => exact ⟨h.reach, h.thr, fun hq => absurd hi hq, h.ini⟩
  | bar hq =>
    exact ⟨h.reach.step hq.1, fun t ht => h.thr t fun h1 => ht (hq.2.1 t h1), fun hi => h.usr fun h1 => hi (hq.2.2.1 0 h1), h.ini⟩

/-- Every step is a step of the model of C104, or nothing there, and then closer to the end of the calls of the barrier that are under way. -/
theorem ystep_abs {x x' : YS N} (h : YInv x) (hs : YStep x x') : GStep x.abs x'.abs ∨ (x'.abs = x.abs ∧ x'.bar.weight < x.bar.weight) := by
  cases hs with
  | @work t _ hw =>
    left; left; refine ⟨t, ?_⟩
    cases hw with
    | own hb hs => exact (gwork_bar hs hb (h.noawake t) x.bar.abs).2

    | finArrive hp ho =>
      have hout := (h.arrive (t := t) (p := .finIn) (by rw [hp]; rfl) rfl ho).2
      have := GWork.finArrive (s := x.abs) (t := t) hp
      show GWork t x.abs { (x.st.setPc t .finIn) with bar := FBar.abs _ }
      rw [FBar.abs_lock hout ho]
      exact this
    | finOut hp hw => exact GWork.finOut (s := x.abs) (t := t) hp (FBar.abs_out hw h.reach.own)
  | user hu =>
    left; right
    cases hu with
    | own hb hs => exact (guser_bar hs hb x.bar.abs).2
    | intr hp ho =>
      have := GUser.dsIntr (s := x.abs) hp
      show GUser x.abs { x.st with usr := .dsUnlock, log := .destroy :: x.st.log, bar := FBar.abs _ }
      rw [FBar.abs_intLock ho]
      exact this
    | unlock hp hi => exact GUser.dsUnlock (s := x.abs) hp
  | @bar b hq =>
    rcases FBar.abs_quiet h.reach.own hq with h1 | ⟨t, g, h1, h2⟩
    · right
      refine ⟨?_, FBar.weight_lt hq⟩
      show { x.st with bar := b.abs } = x.abs
      rw [h1]; rfl
    · left; left
      refine ⟨t, ?_⟩
      have := GWork.recheck (s := x.abs) (t := t) h1
      show GWork t x.abs { x.st with bar := b.abs }
      rw [h2]
      exact this

theorem ycall_inv {x : YS N} {s : GS N} (h : YInv x) (hs : GCall x.st s) : YInv { x with st := s } := by
  have hi := (gcall_bar hs (Bar.init N)).1.trans h.ini
  have hu : x.bar.ipc 0 = .out := by
    by_cases hq : x.bar.ipc 0 = .out
    · exact hq
    · have := h.usr hq
      cases hs <;> simp_all
  refine ⟨h.reach, fun t ht => ?_, fun hq => absurd hu hq, hi⟩
  have := h.thr t ht
  cases hs <;> exact this

theorem yspur_inv {x x' : YS N} (h : YInv x) (hs : YSpurious x x') : YInv x' := by
  have key : ∀ (t : Fin N) (th : GThr), (x.st.thr t).pc.inBar = false → YInv { x with st := x.st.setThr t th } := by
    intro t th hp
    refine ⟨h.reach, fun u hu => ?_, h.usr, h.ini⟩
    have h1 := h.thr u hu
    have hut : u ≠ t := by rintro rfl; rw [h1] at hp; cases hp
    show (Function.update x.st.thr t _ u).pc.inBar = true
    rw [Function.update_of_ne hut]
    exact h1
  cases hs with
  | @cvT t hp => exact key t _ (by rw [hp]; rfl)
  | @cvQ t hp => exact key t _ (by rw [hp]; rfl)
  | @bar t g hp =>
    refine ⟨h.reach.step (.spurious hp), fun u hu => ?_, h.usr, h.ini⟩
    by_cases hut : u = t
    · subst hut; exact h.thr u (by rw [hp]; simp)
    · refine h.thr u ?_
      have : Function.update x.bar.pc t (BarPc.woken g) u ≠ .out := hu
      rwa [Function.update_of_ne hut] at this

theorem yreach_abs {x : YS N} (h : YReach x) : YInv x ∧ GReach x.abs := by
  induction h with
  | init =>
    refine ⟨yinv_init, ?_⟩
    exact GReach.init
  | step _ hs ih =>
    obtain ⟨hi, hr⟩ := ih
    refine ⟨yinv_step hi hs, ?_⟩
    rcases ystep_abs hi hs with h1 | ⟨h1, _⟩
    · exact hr.step h1
    · rw [h1]; exact hr
  | call _ hs ih =>
    obtain ⟨hi, hr⟩ := ih
    exact ⟨ycall_inv hi hs, hr.call (gcall_bar hs _).2⟩
  | @spurious x _ _ hs ih =>
    obtain ⟨hi, hr⟩ := ih
    refine ⟨yspur_inv hi hs, ?_⟩
    cases hs with
    | cvT hp => exact hr.spurious (GSpurious.cvT (s := x.abs) hp)
    | cvQ hp => exact hr.spurious (GSpurious.cvQ (s := x.abs) hp)
    | @bar t g hp =>
      rcases FBar.abs_spurious hi.reach.own hp with h1 | ⟨h1, h2⟩
      · show GReach { x.st with bar := FBar.abs _ }
        rw [h1]; exact hr
      · have := GSpurious.bar (s := x.abs) h1
        show GReach { x.st with bar := FBar.abs _ }
        rw [h2]
        exact hr.spurious this

/-- If nothing can happen, nothing can happen in the model of C104. -/
theorem ystuck_abs {x : YS N} (h : YInv x) (hno : ∀ x', ¬ YStep x x') : ∀ f', ¬ GStep x.abs f' := by
  obtain ⟨ho, hpc, hip⟩ := FBar.progress h.reach fun b hq => hno _ (.bar hq)
  have hb : x.bar.abs = x.bar.base := FBar.abs_none ho
  have hnw : ∀ t g, x.abs.bar.wt t ≠ .awake g := by
    intro t g hg
    have hg' : x.bar.abs.wt t = .awake g := hg
    rw [hb] at hg'
    have hg2 : (x.bar.pc t).co = .awake g := hg'
    rcases hpc t with h1 | ⟨g', h1⟩ <;> rw [h1] at hg2 <;> cases hg2
  have hout : ∀ t, x.abs.bar.wt t = .out → x.bar.pc t = .out := by
    intro t hw
    have hw' : x.bar.abs.wt t = .out := hw
    rw [hb] at hw'
    have hw2 : (x.bar.pc t).co = .out := hw'
    rcases hpc t with h1 | ⟨g', h1⟩
    · exact h1
    · rw [h1] at hw2; cases hw2
  rintro f' (⟨t, hw⟩ | hu)
  · by_cases hab : (x.st.thr t).pc.atBar = true
    · have hcs : (x.st.thr t).pc = .finArr ∨ (x.st.thr t).pc = .finIn := by
        revert hab
        cases (x.st.thr t).pc with
        | finArr => intro _; exact .inl rfl
        | finIn => intro _; exact .inr rfl
        | _ => intro h; cases h
      rcases hcs with hp | hp
      · exact hno _ (.work (.finArrive hp ho))
      · rcases gwork_inBar hw (by show (x.st.thr t).pc.inBar = true; rw [hp]; rfl) with h1 | ⟨g, h1⟩
        · exact hno _ (.work (.finOut hp (hout t h1)))
        · exact hnw t g h1
    · have hab' : (x.st.thr t).pc.atBar = false := by simpa using hab
      exact hno _ (.work (.own hab' (gwork_bar hw hab' (hnw t) x.st.bar).2))
  · by_cases h1 : x.st.usr = .dsIntr
    · exact hno _ (.user (.intr h1 ho))
    · by_cases h2 : x.st.usr = .dsUnlock
      · exact hno _ (.user (.unlock h2 (hip 0)))
      · exact hno _ (.user (.own ⟨h1, h2⟩ (guser_bar hu ⟨h1, h2⟩ x.st.bar).2))

theorem ystep_acc_aux {f : GS N} (ha : Acc (fun f' f => GStep f f') f) : ∀ n (x : YS N), x.abs = f → x.bar.weight = n → YReach x →
    Acc (fun x' x => YStep x x') x := by
  induction ha with
  | intro f _ ih =>
    intro n
    induction n using Nat.strongRecOn with
    | ind n ihn =>
      intro x hx hn hr
      refine .intro _ fun x' hs => ?_
      rcases ystep_abs (yreach_abs hr).1 hs with h1 | ⟨h1, h2⟩
      · exact ih x'.abs (hx ▸ h1) _ x' rfl rfl (.step hr hs)
      · exact ihn x'.bar.weight (hn ▸ h2) x' (h1.trans hx) rfl (.step hr hs)

/-- What is inevitable in the model of C104 is inevitable. -/
theorem y_inevitable {P : GS N → Prop} {f : GS N} (hi : Inevitable (GStep ) P f) : ∀ n (x : YS N), x.abs = f → x.bar.weight = n →
    YReach x → Inevitable (YStep ) (fun x => P x.abs) x := by
  induction hi with
  | now hp => intro n x hx _ _; exact .now (hx ▸ hp)
  | @later f hex _ ih =>
    intro n
    induction n using Nat.strongRecOn with
    | ind n ihn =>
      intro x hx hn hr
      have hinv := (yreach_abs hr).1
      refine .later ?_ fun x' hs => ?_
      · by_cases hn : ∃ x', YStep x x'
        · exact hn
        · obtain ⟨f', hf⟩ := hex
          exact absurd (hx ▸ hf) (ystuck_abs hinv (fun x' hs => hn ⟨x', hs⟩) f')
      · rcases ystep_abs hinv hs with h1 | ⟨h1, h2⟩
        · exact ih x'.abs (hx ▸ h1) _ x' rfl rfl (.step hr hs)
        · exact ihn x'.bar.weight (hn ▸ h2) x' (h1.trans hx) rfl (.step hr hs)

end Lib842
