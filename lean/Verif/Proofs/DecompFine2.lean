import Verif.Proofs.DecompFine
/-!
# Termination, deadlock freedom, callbacks and the output pointer of the fine-grained decompression stream
-/

namespace Lib842
open Spec

variable {N : Nat} {f f' : GS N} {c : DS N} {t : Fin N}

theorem gwork_usr (h : GWork t f f') : f'.usr = f.usr ∧ f'.ptr = f.ptr ∧ f'.opPtr = f.opPtr := by cases h <;> exact ⟨rfl, rfl, rfl⟩

/-- The steps of the call under way -/
def GUsr.rank : GUsr → Nat
  | .idle | .dsJoin | .aborted => 0
  | .unlock | .dsUnlock => 1
  | .stNotify _ | .puNotify _ | .fnNotify _ | .dsIntr => 2
  | .stTrig _ | .puPush _ | .fnQueue _ | .dsNotQ => 3
  | .stLock _ | .puErr _ | .fnCb _ _ | .dsNotT => 4
  | .stPtr _ | .puAssert _ | .fnFlag _ _ | .dsQuit => 5
  | .puLock _ | .fnLock _ _ | .dsLock => 6

theorem guser_rank (h : GUser f f') : f'.usr.rank < f.usr.rank := by
  cases h <;> try (simp [GUsr.rank, GS.setPc, GS.setThr, *]; done)
  case puAssert hu =>
    show GUsr.rank (if f.finalizing = true then _ else _) < _
    split <;> simp [GUsr.rank, hu]

theorem gstep_acc_aux : ∀ n (f : GS N) c, f.usr.rank = n → GRel f c → DReach c → Acc (fun f' f => GStep f f') f := by
  intro n
  induction n using Nat.strongRecOn with
  | _ n ihn =>
    intro f c hn hr hc
    have ha := dwork_acc c hc
    induction ha generalizing f with
    | intro c _ ihc =>
      have main : ∀ w (f : GS N), f.wgt = w → f.usr.rank = n → GRel f c → Acc (fun f' f => GStep f f') f := by
        intro w
        induction w using Nat.strongRecOn with
        | _ w ihw =>
          intro f hw hn hr
          refine Acc.intro _ ?_
          rintro f' (⟨t, hs⟩ | hs)
          · obtain ⟨c', hr', h1 | ⟨rfl, h2⟩⟩ := hr.sim hs
            · exact ihc c' ⟨t, h1⟩ f' (by rw [(gwork_usr hs).1]; exact hn) hr' (.work hc h1)
            · exact ihw _ (hw ▸ h2) f' rfl (by rw [(gwork_usr hs).1]; exact hn) hr'
          · obtain ⟨c', hc', hr'⟩ := hr.simUser hc hs
            exact ihn _ (hn ▸ guser_rank hs) f' c' rfl hr' hc'
      exact main _ f rfl hn hr

theorem gstep_acc (h : GReach f) : Acc (fun f' f => GStep f f') f := by
  obtain ⟨c, hc, hr⟩ := greach_rel h
  exact gstep_acc_aux _ f c rfl hr hc

/-- A thread inside a critical section can go on. -/
theorem gheld_step (hr : GRel f c) (h : (f.thr t).pc.held = true) : ∃ f', GWork t f f' := by
  cases hp : (f.thr t).pc <;> rw [hp] at h <;> try (cases h; done)
  case trigCmp => exact (em (f.trig = (f.thr t).lastTrig)).elim (fun e => ⟨_, .trigEq hp e⟩) fun e => ⟨_, .trigNe hp e⟩
  case trigQuit => cases hq : f.quit; exacts [⟨_, .trigWait hp hq⟩, ⟨_, .trigQuit hp hq⟩]
  case trigRead => exact ⟨_, .trigRead hp⟩
  case trigUnlock => exact ⟨_, .trigUnlock hp⟩
  case popEmpty => exact ⟨_, .popEmpty hp⟩
  case popFin => exact ⟨_, .popFin hp⟩
  case popQuit => cases hq : f.quit; exacts [⟨_, .popWait hp hq⟩, ⟨_, .popQuit hp hq⟩]
  case brkFin => exact ⟨_, .brkFin hp⟩
  case brkEmpty => exact ⟨_, .brkEmpty hp⟩
  case brkQuit => exact ⟨_, .brkQuit hp⟩
  case popFront =>
    have hl := hr.loc t
    simp only [GThr.Loc, hp] at hl
    obtain ⟨b, q, hq⟩ := List.exists_cons_of_ne_nil hl.2
    exact ⟨_, .popFront hp hq⟩
  case popPop => exact ⟨_, .popPop hp⟩
  case popUnlock => exact ⟨_, .popUnlock hp⟩
  case brkUnlock => exact ⟨_, .brkUnlock hp⟩
  case failRead => exact ⟨_, .failRead hp⟩
  case failErr => exact ⟨_, .failErr hp⟩
  case failQueue => exact ⟨_, .failQueue hp⟩
  case failUnlock => exact ⟨_, .failUnlock hp⟩
  case rQuit => exact ⟨_, .rQuit hp⟩
  case rErr => exact ⟨_, .rErr hp⟩
  case rErrSet => exact ⟨_, .rErrSet hp⟩
  case rFin => exact ⟨_, .rFin hp⟩
  case rCb => exact ⟨_, .rCb (x := none) hp⟩
  case rCbClear => exact ⟨_, .rCbClear hp⟩
  case rUnlock => exact ⟨_, .rUnlock hp⟩
  case rUnlockQuit => exact ⟨_, .rUnlockQuit hp⟩

theorem guser_step (hr : GRel f c) (h : f.usr.held = true) : ∃ f', GUser f f' := by
  cases hp : f.usr <;> rw [hp] at h <;> try (cases h; done)
  case stTrig => exact ⟨_, .stTrig hp⟩
  case stNotify => exact ⟨_, .stNotify hp⟩
  case puAssert => exact ⟨_, .puAssert hp⟩
  case puErr => cases he : f.error; exacts [⟨_, .puAccept hp he⟩, ⟨_, .puRefuse hp he⟩]
  case puPush => exact ⟨_, .puPush hp⟩
  case puNotify =>
    by_cases hn : ∃ t, (f.thr t).pc = .popSleep
    · obtain ⟨t, ht⟩ := hn
      exact ⟨_, .puWake hp ht⟩
    · exact ⟨_, .puNone hp fun t ht => hn ⟨t, ht⟩⟩
  case fnFlag => exact ⟨_, .fnFlag hp⟩
  case fnCb => exact ⟨_, .fnCb hp⟩
  case fnQueue => exact ⟨_, .fnQueue hp⟩
  case fnNotify => exact ⟨_, .fnNotify hp⟩
  case unlock => exact ⟨_, .unlock hp⟩
  case dsQuit => exact ⟨_, .dsQuit hp⟩
  case dsNotT => exact ⟨_, .dsNotT hp⟩
  case dsNotQ => exact ⟨_, .dsNotQ hp⟩
  case dsIntr => exact ⟨_, .dsIntr hp⟩
  case dsUnlock => exact ⟨_, .dsUnlock hp⟩
  case aborted => have := hr.uloc; rw [hp] at this; exact this.elim

/-- If nothing can happen, the user is in no call, or waits for the threads to end. -/
theorem gstuck_user (hr : GRel f c) (hno : ∀ f', ¬ GStep f f') : f.owner = none ∧ (f.usr = .idle ∨ f.usr = .dsJoin) := by
  have ho : f.owner = none := by
    cases ho : f.owner with
    | none => rfl
    | some o =>
      cases o with
      | none =>
        obtain ⟨f', hs⟩ := guser_step hr (hr.uown.2 ho)
        exact absurd (.inr hs) (hno f')
      | some t =>
        obtain ⟨f', hs⟩ := gheld_step hr ((hr.own t).2 ho)
        exact absurd (.inl ⟨t, hs⟩) (hno f')
  refine ⟨ho, ?_⟩
  have key : ∀ f', ¬ GUser f f' := fun f' hs => hno f' (.inr hs)
  have hh : f.usr.held = false := hr.usrNone ho
  cases hp : f.usr <;> rw [hp] at hh <;> try (cases hh; done)
  case idle => exact .inl rfl
  case stPtr => exact absurd (.stPtr hp) (key _)
  case stLock => exact absurd (.stLock hp ho) (key _)
  case puLock => exact absurd (.puLock hp ho) (key _)
  case fnLock => exact absurd (.fnLock hp ho) (key _)
  case dsLock => exact absurd (.dsLock hp ho) (key _)
  case dsJoin => exact .inr rfl

theorem gstuck_thr (hr : GRel f c) (hno : ∀ f', ¬ GStep f f') (t : Fin N) :
    (f.thr t).pc = .trigSleep ∨ (f.thr t).pc = .popSleep ∨ (f.thr t).pc = .done ∨ ∃ g, f.bar.wt t = .asleep g := by
  obtain ⟨ho, hu⟩ := gstuck_user hr hno
  have key : ∀ f', ¬ GWork t f f' := fun f' hs => hno f' (.inl ⟨t, hs⟩)
  have hh : (f.thr t).pc.held = false := hr.thrNone ho t
  cases hw : f.bar.wt t with
  | awake g => exact absurd (.recheck hw) (key _)
  | asleep g => exact .inr (.inr (.inr ⟨g, rfl⟩))
  | out =>
    cases hp : (f.thr t).pc <;> rw [hp] at hh <;> try (cases hh; done)
    case top => cases hq : f.quit; exacts [absurd (.topGo hp hq) (key _), absurd (.topQuit hp hq) (key _)]
    case trigLock => exact absurd (.trigLock (.inl hp) ho) (key _)
    case trigSleep => exact .inl rfl
    case trigWoken => exact absurd (.trigLock (.inr hp) ho) (key _)
    case popLock => exact absurd (.popLock (.inl hp) ho) (key _)
    case popSleep => exact .inr (.inl rfl)
    case popWoken => exact absurd (.popLock (.inr hp) ho) (key _)
    case handle => exact absurd (.handleOk hp) (key _)
    case failLock => exact absurd (.failLock hp ho) (key _)
    case finArr => exact absurd (.finArrive hp) (key _)
    case finIn => exact absurd (.finOut hp hw) (key _)
    case rLock => exact absurd (.rLock hp ho) (key _)
    case callback => exact absurd (.callback hp) (key _)
    case inCallback => exact absurd (.callbackDone hp) (key _)
    case done => exact .inr (.inr (.inl rfl))

theorem gstuck (hN : 0 < N) (h : GReach f) (hno : ∀ f', ¬ GStep f f') :
    (.destroy ∈ f.log ∧ f.usr = .dsJoin ∧ ∀ t, (f.thr t).pc = .done) ∨
    (.destroy ∉ f.log ∧ f.usr = .idle ∧ (dmayStart f.log ∨ (dmayPush f.log ∧
      (ends (dcurOp f.log)).Perm (begins (dcurOp f.log)) ∧
      ((∀ b, .ended b false ∉ dcurOp f.log) → (ends (dcurOp f.log)).Perm (pushes (dcurOp f.log)))))) := by
  obtain ⟨c, hc, hr⟩ := greach_rel h
  obtain ⟨ho, hu⟩ := gstuck_user hr hno
  have hd : f.usr.dquit = false := by
    rcases hu with hu | hu <;> rw [hu] <;> rfl
  have hst : ∀ t, c.stuck t := by
    intro t
    have hp := hr.cpc t
    rcases gstuck_thr hr hno t with h1 | h1 | h1 | ⟨g, h1⟩
    · refine .inl ?_
      rw [hp]; simp [GThr.coPc, h1]
    · refine .inr (.inl ?_)
      rw [hp]; simp [GThr.coPc, h1]
    · refine .inr (.inr (.inl ?_))
      rw [hp, hd]; simp [GThr.coPc, h1]
    · exact .inr (.inr (.inr ⟨g, by rw [hr.bar, h1]⟩))
  obtain ⟨arr, G, base, run, hi⟩ := dreach_inv hc
  have hq := dreach_quit hc
  rcases dquiescent hi hN hst with ⟨h1, h2⟩ | ⟨h1, h2⟩
  · left
    rw [← hr.log]
    refine ⟨hq.1 h1, ?_, fun t => ?_⟩
    · rcases hu with hu | hu
      · have := hr.uloc
        rw [hu] at this
        have hx := hr.quit
        rw [h1, show f.quit = false from this] at hx
        cases hx
      · exact hu
    · have h3 := h2 t
      rw [hr.cpc t, hd] at h3
      unfold GThr.coPc at h3
      cases hp : (f.thr t).pc <;> rw [hp] at h3 <;> first | rfl | cases h3
  · right
    rw [← hr.log]
    refine ⟨fun hx => ?_, ?_, ?_⟩
    · rw [hq.2 hx] at h1; cases h1
    · rcases hu with hu | hu
      · exact hu
      · have := hr.uloc
        rw [hu] at this
        have hx := hr.quit
        rw [h1, show f.quit = true from this, hd] at hx
        cases hx
    · rcases h2 with h2 | ⟨h2, h3, h4⟩
      · exact .inl h2
      · exact .inr ⟨h2, List.perm_iff_count.2 h3, fun hx => List.perm_iff_count.2 fun b => (h3 b).trans (h4 hx b)⟩

/-! ## The callback -/

/-- The last callback given is `y`, and no callback has been called since. -/
def Given (cbs : List CbEv) (y : Option Nat) : Prop := ∃ g l, y = some g ∧ cbs = .given g :: l

def GThr.Cb (th : GThr) (lead fin : Bool) (cb : Option Nat) (cbs : List CbEv) : Prop :=
  match th.pc with
  | .rLock | .rQuit | .rErr | .rErrSet _ | .rFin _ => lead = true
  | .rCb _ => lead = true ∧ fin = false ∧ Given cbs cb
  | .rCbClear _ g | .rUnlock _ g | .callback _ g => lead = true ∧ fin = false ∧ Given cbs g
  | _ => True

def GUsr.isCb : GUsr → Bool
  | .fnCb _ _ => true
  | _ => false

structure CbInv (f : GS N) : Prop where
  thr : ∀ t, (f.thr t).Cb (dlead t) f.finalizing f.cb f.cbs
  fin : f.finalizing = true → f.usr.isCb = false → Given f.cbs f.cb
  tr : ∀ l2 x l1, f.cbs = l2 ++ .called x :: l1 → Given l1 x

namespace CbInv

theorem upd (h : CbInv f) {th : GThr} (h1 : f'.thr = Function.update f.thr t th)
    (h2 : f'.finalizing = f.finalizing ∧ f'.cb = f.cb ∧ f'.cbs = f.cbs ∧ f'.usr = f.usr) (hl : th.Cb (dlead t) f.finalizing f.cb f.cbs) : CbInv f' := by
  obtain ⟨e1, e2, e3, e4⟩ := h2
  refine ⟨fun u => ?_, by rw [e1, e2, e3, e4]; exact h.fin, by rw [e3]; exact h.tr⟩
  rw [h1, e1, e2, e3]
  by_cases hu : u = t
  · subst hu; simpa using hl
  · simp only [Function.update_of_ne hu]; exact h.thr u

theorem free {th : GThr} {lead fi : Bool} {cb : Option Nat} {cbs : List CbEv} (h : th.Cb lead fi cb cbs) (hh : th.pc.held = false) {fin' : Bool} {cb' : Option Nat}
    (hf : (∃ ok g, th.pc = .callback ok g) → fin' = false) : th.Cb lead fin' cb' cbs := by
  unfold GThr.Cb at h ⊢
  cases hp : th.pc <;> rw [hp] at h hh hf <;> first | exact h | (cases hh; done) | exact ⟨h.1, hf ⟨_, _, rfl⟩, h.2.2⟩

/-- While `finalize` is being called, no callback is pending. -/
theorem no_cb (hr : GRel f c) (hc : DReach c) (hq : f.quit = false) (hm : dmayPush f.log) (hd : f.usr.dquit = false) (u : Fin N) (ok : Bool) :
    (f.thr u).coPc false ≠ .callback ok := by
  intro hp
  obtain ⟨arr, G, base, run, hi⟩ := dreach_inv hc
  have hN := hi.n (by rw [hr.quit, hq]; rfl)
  obtain ⟨x, hx⟩ := (hN.cb u ok (by rw [hr.cpc u, hd]; exact hp)).2.1
  rw [hr.log] at hx
  exact hm.2 x hx

theorem work (h : CbInv f) (hr : GRel f c) (hc : DReach c) (hs : GWork t f f') : CbInv f' := by
  have hl := h.thr t
  cases hs
  case finOut hp hw =>
    refine h.upd rfl ⟨rfl, rfl, rfl, rfl⟩ ?_
    show GThr.Cb ⟨_, _⟩ _ _ _ _
    split
    · rename_i h0; simpa [GThr.Cb, dlead] using h0
    · trivial
  case rLock hp _ => exact h.upd rfl ⟨rfl, rfl, rfl, rfl⟩ (by simpa [GThr.Cb, hp] using hl)
  case rQuit hp =>
    refine h.upd rfl ⟨rfl, rfl, rfl, rfl⟩ ?_
    show GThr.Cb ⟨_, _⟩ _ _ _ _
    split
    · trivial
    · simpa [GThr.Cb, hp] using hl
  case rErr hp => exact h.upd rfl ⟨rfl, rfl, rfl, rfl⟩ (by simpa [GThr.Cb, hp] using hl)
  case rErrSet hp => exact h.upd rfl ⟨rfl, rfl, rfl, rfl⟩ (by simpa [GThr.Cb, hp] using hl)
  case rFin e hp =>
    have hh : (f.thr t).pc.held = true := by rw [hp]; rfl
    have hu := GUsr.free (hr.usrFree hh)
    have hq : f.quit = false := by have := hr.loc t; simp only [GThr.Loc, hp] at this; exact this.1
    have hfin : f.finalizing = true := by
      obtain ⟨arr, G, base, run, hi⟩ := dreach_inv hc
      have hT := (hi.n (by rw [hr.quit_eq hh, hq])).thr t
      have hp' : (c.thr t).pc = .reset := by rw [hr.cpc t]; simp [GThr.coPc, hp]
      simp only [DTInv, hp'] at hT
      rw [← hr.fin hu.2.1]; exact hT.2.2.2.2.1
    have hg : Given f.cbs f.cb := h.fin hfin (by
      have := hr.usrFree hh
      cases hx : f.usr <;> rw [hx] at this <;> first | rfl | cases this)
    refine ⟨fun u => ?_, fun hx => (by cases hx), h.tr⟩
    by_cases hut : u = t
    · subst hut
      simp only [GThr.Cb, hp] at hl
      simp [GS.setPc, GS.setThr, GThr.Cb, hl, hg]
    · simp only [GS.setPc, GS.setThr, Function.update_of_ne hut]
      exact free (h.thr u) (hr.alone hh hut) fun _ => rfl
  case rCb e x hp =>
    have hh : (f.thr t).pc.held = true := by rw [hp]; rfl
    simp only [GThr.Cb, hp] at hl
    refine ⟨fun u => ?_, fun hx => (by replace hx : f.finalizing = true := hx; rw [hl.2.1] at hx; cases hx), h.tr⟩
    by_cases hut : u = t
    · subst hut
      simp [GS.setPc, GS.setThr, GThr.Cb, hl]
    · simp only [GS.setPc, GS.setThr, Function.update_of_ne hut]
      exact free (h.thr u) (hr.alone hh hut) fun _ => hl.2.1
  case rCbClear e g hp =>
    have hh : (f.thr t).pc.held = true := by rw [hp]; rfl
    simp only [GThr.Cb, hp] at hl
    refine ⟨fun u => ?_, fun hx => (by replace hx : f.finalizing = true := hx; rw [hl.2.1] at hx; cases hx), h.tr⟩
    by_cases hut : u = t
    · subst hut
      simp [GS.setPc, GS.setThr, GThr.Cb, hl]
    · simp only [GS.setPc, GS.setThr, Function.update_of_ne hut]
      exact free (h.thr u) (hr.alone hh hut) fun _ => hl.2.1
  case rUnlock hp => exact h.upd rfl ⟨rfl, rfl, rfl, rfl⟩ (by simpa [GThr.Cb, hp] using hl)
  case callback ok g hp =>
    simp only [GThr.Cb, hp] at hl
    refine ⟨fun u => ?_, fun hx => (by replace hx : f.finalizing = true := hx; rw [hl.2.1] at hx; cases hx), ?_⟩
    · by_cases hut : u = t
      · subst hut
        simp [GS.setPc, GS.setThr, GThr.Cb]
      · simp only [GS.setPc, GS.setThr, Function.update_of_ne hut]
        have h1 := h.thr u
        have h2 : dlead u = false := by
          have := hl.1
          simp only [dlead, decide_eq_true_eq, decide_eq_false_iff_not] at this ⊢
          exact fun hx => hut (Fin.ext (hx.trans this.symm))
        unfold GThr.Cb at h1 ⊢
        cases hq : (f.thr u).pc <;> rw [hq] at h1 <;> first | exact h1 | (rw [h2] at h1; cases h1.1)
    · intro l2 x l1 he
      replace he : CbEv.called g :: f.cbs = l2 ++ .called x :: l1 := he
      cases l2 with
      | nil =>
        simp only [List.nil_append, List.cons.injEq, CbEv.called.injEq] at he
        obtain ⟨rfl, rfl⟩ := he
        exact hl.2.2
      | cons a l2 =>
        simp only [List.cons_append, List.cons.injEq] at he
        exact h.tr l2 x l1 he.2
  case recheck => exact ⟨h.thr, h.fin, h.tr⟩
  all_goals first
    | exact h.upd (th := { f.thr t with pc := _ }) rfl ⟨rfl, rfl, rfl, rfl⟩ trivial
    | exact h.upd rfl ⟨rfl, rfl, rfl, rfl⟩ trivial
    | (refine h.upd rfl ⟨rfl, rfl, rfl, rfl⟩ ?_; show GThr.Cb ⟨_, _⟩ _ _ _ _; split <;> trivial)

theorem wakeT_cb {th : GThr} {lead fi : Bool} {cb : Option Nat} {cbs : List CbEv} (h : th.Cb lead fi cb cbs) : th.wakeT.Cb lead fi cb cbs := by
  unfold GThr.wakeT GThr.Cb at *; cases hp : th.pc <;> rw [hp] at h <;> simp_all
theorem wakeQ_cb {th : GThr} {lead fi : Bool} {cb : Option Nat} {cbs : List CbEv} (h : th.Cb lead fi cb cbs) : th.wakeQ.Cb lead fi cb cbs := by
  unfold GThr.wakeQ GThr.Cb at *; cases hp : th.pc <;> rw [hp] at h <;> simp_all

theorem user (h : CbInv f) (hr : GRel f c) (hc : DReach c) (hs : GUser f f') : CbInv f' := by
  have hul := hr.uloc
  have cbf : ∀ {u : GUsr}, f.usr = u → u.held = true → u.dquit = false → f.quit = false → dmayPush f.log →
      ∀ t, (f.thr t).pc.held = false ∧ ¬ ∃ ok g, (f.thr t).pc = .callback ok g := by
    intro u hu h1 h2 h3 h4 t
    refine ⟨hr.thrFree (by rw [hu]; exact h1) t, ?_⟩
    rintro ⟨ok, g, hp⟩
    exact no_cb hr hc h3 h4 (by rw [hu]; exact h2) t ok (by simp [GThr.coPc, hp])
  cases hs
  case stNotify hu => exact ⟨fun t => wakeT_cb (h.thr t), fun h1 _ => h.fin h1 (by rw [hu]; rfl), h.tr⟩
  case puWake hu hn => exact ⟨(h.upd (f' := f.setPc _ .popWoken) rfl ⟨rfl, rfl, rfl, rfl⟩ trivial).thr, fun h1 _ => h.fin h1 (by rw [hu]; rfl), h.tr⟩
  case fnFlag hu =>
    rw [hu] at hul
    exact ⟨fun t => free (h.thr t) (cbf hu rfl rfl hul.1 hul.2 t).1 fun hx => ((cbf hu rfl rfl hul.1 hul.2 t).2 hx).elim, fun _ hx => (by cases hx), h.tr⟩
  case fnCb cn g hu =>
    rw [hu] at hul
    refine ⟨fun t => ?_, fun _ _ => ⟨g, _, rfl, rfl⟩, ?_⟩
    · obtain ⟨h1, h2⟩ := cbf hu rfl rfl hul.1 hul.2.1 t
      have h3 := h.thr t
      show (f.thr t).Cb _ _ _ _
      unfold GThr.Cb at h3 ⊢
      cases hq : (f.thr t).pc <;> rw [hq] at h3 h1 h2 <;> first | exact h3 | (cases h1; done) | exact absurd ⟨_, _, rfl⟩ h2
    · intro l2 x l1 he
      replace he : CbEv.given g :: f.cbs = l2 ++ .called x :: l1 := he
      cases l2 with
      | nil => simp at he
      | cons a l2 =>
        simp only [List.cons_append, List.cons.injEq] at he
        exact h.tr l2 x l1 he.2
  case fnNotify hu => exact ⟨fun t => wakeQ_cb (h.thr t), fun h1 _ => h.fin h1 (by rw [hu]; rfl), h.tr⟩
  case dsNotT hu => exact ⟨fun t => wakeT_cb (h.thr t), fun h1 _ => h.fin h1 (by rw [hu]; rfl), h.tr⟩
  case dsNotQ hu => exact ⟨fun t => wakeQ_cb (h.thr t), fun h1 _ => h.fin h1 (by rw [hu]; rfl), h.tr⟩
  all_goals exact ⟨h.thr, fun h1 _ => h.fin h1 (by simp_all [GUsr.isCb]), h.tr⟩

end CbInv

theorem greach_cb (h : GReach f) : CbInv f := by
  induction h with
  | init => exact ⟨fun _ => trivial, fun hx => (by cases hx), fun l2 x l1 hx => by simp [GS.init] at hx⟩
  | step h0 hs ih =>
    obtain ⟨c, hc, hr⟩ := greach_rel h0
    rcases hs with ⟨t, hs⟩ | hs
    · exact ih.work hr hc hs
    · exact ih.user hr hc hs
  | call h0 hs ih => cases hs <;> exact ⟨ih.thr, fun h1 _ => ih.fin h1 (by simp_all [GUsr.isCb]), ih.tr⟩
  | spurious h0 hs ih =>
    cases hs
    · exact ih.upd rfl ⟨rfl, rfl, rfl, rfl⟩ trivial
    · exact ih.upd rfl ⟨rfl, rfl, rfl, rfl⟩ trivial
    · exact ⟨ih.thr, ih.fin, ih.tr⟩

/-! ## The output pointer -/

def GUsr.inStart : GUsr → Option Nat
  | .stLock p | .stTrig p | .stNotify p => some p
  | _ => none

theorem greach_ptr (h : GReach f) : f.ptr = f.usr.inStart.getD f.opPtr := by
  induction h with
  | init => rfl
  | step h0 hs ih =>
    rcases hs with ⟨t, hs⟩ | hs
    · obtain ⟨h1, h2, h3⟩ := gwork_usr hs
      rw [h1, h2, h3]; exact ih
    · cases hs <;> simp_all [GUsr.inStart, GS.setPc, GS.setThr]
      cases hf : GS.finalizing _ <;> simp
  | call h0 hs ih => cases hs <;> simp_all [GUsr.inStart]
  | spurious h0 hs ih => cases hs <;> exact ih

theorem gidle (hr : GRel f c) (hc : DReach c) {p : Nat} (hu : f.usr = .stPtr p ∨ f.usr.inStart = some p) (b : Nat) : (f.thr t).pc ≠ .handle b := by
  intro hp
  have hl : f.quit = false ∧ dmayStart f.log := by
    have := hr.uloc
    cases hx : f.usr <;> rw [hx] at hu this <;> simp [GUsr.inStart] at hu
    · exact this
    · exact this
    · exact this
    · exact ⟨this.1, this.2.1⟩
  have h1 := (dreach_start_idle hc (by rw [hr.quit, hl.1]; rfl) (by rw [hr.log]; exact hl.2) t).1
  rw [hr.cpc t] at h1
  simp [GThr.coPc, hp, DPc.idle] at h1

end Lib842
