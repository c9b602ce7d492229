import Verif.Proofs.DecompStream3
import Verif.Proofs.CompStream5
/-!
# The decompression stream: no deadlock, termination, traces, execution
-/

namespace Lib842
open Spec

variable {N : Nat}

/-! ## Threads that cannot move -/

/-- A thread without a step. -/
def DS.stuck (s : DS N) (t : Fin N) : Prop :=
  (s.thr t).pc = .trigSleep ∨ (s.thr t).pc = .popSleep ∨ (s.thr t).pc = .done ∨
    ∃ g, s.bar.wt t = .asleep g

theorem dstuck_of {s : DS N} {t : Fin N} (hno : ∀ s', ¬ DWork t s s') : s.stuck t := by
  have key : ∀ s', DWork t s s' → s.stuck t := fun s' h' => absurd h' (hno s')
  cases hw : s.bar.wt t with
  | asleep g => exact .inr (.inr (.inr ⟨g, hw⟩))
  | awake g => exact key _ (.recheck hw)
  | out =>
    cases hp : (s.thr t).pc with
    | top =>
      cases hq : s.quit with
      | true => exact key _ (.topQuit hp hq)
      | false => exact key _ (.topGo hp hq)
    | trig =>
      by_cases hc : s.trig ≠ (s.thr t).lastTrig ∨ s.quit = true
      · exact key _ (.trigGo hp hc)
      · refine key _ (.trigWait hp ?_)
        rw [not_or] at hc
        exact ⟨by simpa using hc.1, by simpa using hc.2⟩
    | trigSleep => exact .inl hp
    | pop =>
      have hqq : s.quit = true ∨ s.quit = false := by cases s.quit <;> simp
      rcases hqq with hq | hq
      · exact key _ (.popBreak hp (.inr hq))
      · cases hql : s.queue with
        | cons b q => exact key _ (.popTake hp hq hql)
        | nil =>
          cases hf : s.finalizing with
          | true => exact key _ (.popBreak hp (.inl ⟨hf, hql⟩))
          | false => exact key _ (.popWait hp ⟨hql, hf, hq⟩)
    | popSleep => exact .inr (.inl hp)
    | handle b => exact key _ (.handleOk hp)
    | failed => exact key _ (.failed hp)
    | finArr => exact key _ (.finArrive hp)
    | finIn => exact key _ (.finOut hp hw)
    | reset =>
      cases hq : s.quit with
      | true => exact key _ (.resetQuit hp hq)
      | false => exact key _ (.reset hp hq)
    | callback ok => exact key _ (.callback hp)
    | inCallback => exact key _ (.callbackDone hp)
    | done => exact .inr (.inr (.inl hp))

/-- If no thread can move, the stream waits for its user with nothing left to do, or all threads
have ended. -/
theorem dquiescent {s : DS N} {arr : Fin N → Nat} {G base : Nat} {run : Bool}
    (h : DInv s arr G base run) (hN : 0 < N) (hst : ∀ t, s.stuck t) :
    (s.quit = true ∧ ∀ t, (s.thr t).pc = .done) ∨
    (s.quit = false ∧ (dmayStart s.log ∨ (dmayPush s.log ∧
      (∀ b, (ends (dcurOp s.log)).count b = (begins (dcurOp s.log)).count b) ∧
      ((∀ b, .ended b false ∉ dcurOp s.log) →
        ∀ b, (begins (dcurOp s.log)).count b = (pushes (dcurOp s.log)).count b)))) := by
  cases hq : s.quit with
  | true =>
    left
    refine ⟨rfl, fun t => ?_⟩
    have hQ := h.q hq
    rcases hst t with h1 | h1 | h1 | ⟨g, h1⟩
    · have := hQ.sleep t; rw [h1] at this; cases this
    · have := hQ.sleep t; rw [h1] at this; cases this
    · exact h1
    · exact absurd h1 (hQ.bar.2 t g)
  | false =>
    right
    refine ⟨rfl, ?_⟩
    have hI := h.n hq
    have noDone : ∀ t, (s.thr t).pc ≠ .done := by
      intro t ht
      have := hI.thr t
      simp only [DTInv, ht] at this
    have noSleep : ∀ t g, s.bar.wt t ≠ .asleep g := by
      intro t g ht
      have hin : (s.thr t).pc = .finIn := by
        cases hp : (s.thr t).pc
        case finIn => rfl
        all_goals
          have := hI.wtOut t (by rw [hp]; rfl)
          rw [ht] at this; cases this
      have hat : arr t = G + 1 := by
        rcases hI.bar.ph t with ha | ha
        · rcases hI.bar.old t ha with h2 | ⟨_, _, h2⟩ <;> rw [ht] at h2 <;> cases h2
        · exact ha
      obtain ⟨u, hu⟩ := hI.bar.exists_old hN
      have hTu := hI.thr u
      have hle : arr t ≤ base + 1 := (hI.thr t).le
      rcases hst u with h1 | h1 | h1 | ⟨g', h1⟩
      · simp only [DTInv, h1] at hTu
        have : arr u = base + 1 := hTu.2
        omega
      · simp only [DTInv, h1] at hTu
        obtain ⟨_, u2, u3, u5⟩ := hTu
        have u3' : arr u = base := u3
        have hTt := hI.thr t
        simp only [DTInv, hin] at hTt
        rcases hTt with hTt | hTt
        · have := (hTt.2.2.1 u2).1
          rw [u5] at this; cases this
        · have : arr t = base := hTt.2.1
          omega
      · exact noDone u h1
      · rcases hI.bar.old u hu with h2 | ⟨_, _, h2⟩ <;> rw [h1] at h2 <;> cases h2
    -- the leader
    let t0 : Fin N := ⟨0, hN⟩
    have hl : dlead t0 = true := by simp [dlead, t0]
    have hT0 := hI.thr t0
    rcases hst t0 with h1 | h1 | h1 | ⟨g, h1⟩
    · left
      simp only [DTInv, h1] at hT0
      have hr : run = false := by
        cases hr : run with
        | false => rfl
        | true => exact absurd hT0.1 (hI.lead hr t0 hl (by rw [h1]; rfl))
      cases hs : dstarted s.log with
      | false => exact .inl hs
      | true =>
        right
        refine hI.noCb hr hs fun u => ?_
        rcases hst u with h2 | h2 | h2 | ⟨g, h2⟩
        · rw [h2]; rfl
        · rw [h2]; rfl
        · rw [h2]; rfl
        · exact absurd h2 (noSleep u g)
    · right
      simp only [DTInv, h1] at hT0
      obtain ⟨_, hr, _, hf⟩ := hT0
      have hr : run = true := hr
      obtain ⟨r2, _, r4⟩ := hI.runT hr
      have hnf : ∀ c, .finalize c ∉ dcurOp s.log := by
        intro c hc
        have : s.finalizing = true := r4.2 ⟨c, hc⟩
        have h5 : s.finalizing = false := hf
        rw [h5] at this; cases this
      have noAct : ∀ u, (s.thr u).pc.active = false := by
        intro u
        rcases hst u with h2 | h2 | h2 | ⟨g, h2⟩
        · rw [h2]; rfl
        · rw [h2]; rfl
        · rw [h2]; rfl
        · exact absurd h2 (noSleep u g)
      have hqe : s.queue = [] := by
        by_contra hne
        rcases hI.wake hne with ⟨u, hu⟩ | hx
        · rw [noAct u] at hu; cases hu
        · exact hx t0 h1
      refine ⟨⟨r2, hnf⟩, fun b => ?_, fun hne b => ?_⟩
      · have h3 := h.b.hist b
        rw [holders_zero fun u => by
          have := noAct u
          cases hp : (s.thr u).pc <;> rw [hp] at this <;> first | rfl | cases this] at h3
        exact h3
      · have hse : s.error = false := by
          cases hse : s.error with
          | false => rfl
          | true =>
            obtain ⟨b, hb⟩ := (hI.err hr).2 (.inl hse)
            exact absurd hb (hne b)
        have h3 := hI.eq hr hse (hnf true) b
        rw [hqe, List.count_nil, Nat.zero_add] at h3
        exact h3
    · exact absurd h1 (noDone t0)
    · exact absurd h1 (noSleep t0 g)

/-! ## Termination -/

/-- How far a thread is from the end of the operation. -/
def DThr.rank (N : Nat) (quit : Bool) (trig : BitVec 32) (th : DThr) : Nat :=
  let again (n : Nat) : Nat := if th.lastTrig ≠ trig ∧ quit = false then N + 10 + n else n
  match th.pc with
  | .done | .trigSleep => 0
  | .trig => if th.lastTrig ≠ trig ∨ quit = true then N + 10 else 1
  | .top => again 2
  | .inCallback => again 3
  | .callback _ => again 4
  | .reset => again 5
  | .finIn => again 6
  | .finArr | .popSleep => N + 7
  | .pop => N + 8
  | .failed => N + 9
  | .handle _ => N + 10

def DS.sum (s : DS N) : Nat := ∑ t, ((s.thr t).rank N s.quit s.trig + (s.bar.wt t).rank)

def DS.meas (s : DS N) : Nat := 3 * s.queue.length + s.sum

/-- Steps that change one thread and shared members. -/
theorem dmeas_local {s s' : DS N} {t : Fin N} {th : DThr} (hthr : s'.thr = Function.update s.thr t th)
    (hq : s'.quit = s.quit) (htr : s'.trig = s.trig) (hbar : s'.bar = s.bar) 
    (hr : 3 * s'.queue.length + th.rank N s.quit s.trig < 3 * s.queue.length + (s.thr t).rank N s.quit s.trig) :
    s'.meas < s.meas := by
  unfold DS.meas DS.sum
  rw [hthr, hq, htr, hbar]
  have e1 := (Finset.add_sum_erase Finset.univ
    (fun u => ((Function.update s.thr t th) u).rank N s.quit s.trig + (s.bar.wt u).rank) (Finset.mem_univ t)).symm
  have e2 := (Finset.add_sum_erase Finset.univ
    (fun u => (s.thr u).rank N s.quit s.trig + (s.bar.wt u).rank) (Finset.mem_univ t)).symm
  have e3 : ∑ u ∈ Finset.univ.erase t, (((Function.update s.thr t th) u).rank N s.quit s.trig + (s.bar.wt u).rank) =
      ∑ u ∈ Finset.univ.erase t, ((s.thr u).rank N s.quit s.trig + (s.bar.wt u).rank) := by
    apply Finset.sum_congr rfl
    intro u hu
    rw [Function.update_of_ne (Finset.ne_of_mem_erase hu)]
  rw [e1, e2, e3]
  simp only [Function.update_self]
  omega

theorem dmeas_work {s : DS N} {arr : Fin N → Nat} {G base : Nat} {run : Bool} {t : Fin N}
    (h : DInv s arr G base run) {s' : DS N} (hs : DWork t s s') : s'.meas < s.meas := by
  cases hs with
  | topQuit hp hq =>
    refine dmeas_local (t := t) rfl rfl rfl rfl (Nat.add_lt_add_left ?_ _)
    simp [DThr.rank, hp, hq]
  | topGo hp hq =>
    refine dmeas_local (t := t) rfl rfl rfl rfl (Nat.add_lt_add_left ?_ _)
    by_cases hc : (s.thr t).lastTrig = s.trig
    · simp [DThr.rank, hp, hq, hc]
    · simp [DThr.rank, hp, hq, hc]
  | trigGo hp hq =>
    refine dmeas_local (t := t) rfl rfl rfl rfl (Nat.add_lt_add_left ?_ _)
    have : (s.thr t).lastTrig ≠ s.trig ∨ s.quit = true := by
      rcases hq with hq | hq
      · exact .inl fun he => hq he.symm
      · exact .inr hq
    simp only [DThr.rank, hp]
    rw [if_pos this]
    omega
  | trigWait hp hq =>
    refine dmeas_local (t := t) rfl rfl rfl rfl (Nat.add_lt_add_left ?_ _)
    simp only [DThr.rank, hp]
    split <;> omega
  | popWait hp hq =>
    refine dmeas_local (t := t) rfl rfl rfl rfl (Nat.add_lt_add_left ?_ _)
    simp only [DThr.rank, hp]; omega
  | popBreak hp hq =>
    refine dmeas_local (t := t) rfl rfl rfl rfl (Nat.add_lt_add_left ?_ _)
    simp only [DThr.rank, hp]; omega
  | @popTake b q hp hq hb =>
    refine dmeas_local (t := t) rfl rfl rfl rfl ?_
    show 3 * q.length + _ < 3 * s.queue.length + _
    rw [hb, List.length_cons]
    simp only [DThr.rank, hp]; omega
  | handleOk hp =>
    refine dmeas_local (t := t) rfl rfl rfl rfl (Nat.add_lt_add_left ?_ _)
    simp only [DThr.rank, hp]; omega
  | handleFail hp =>
    refine dmeas_local (t := t) rfl rfl rfl rfl (Nat.add_lt_add_left ?_ _)
    simp only [DThr.rank, hp]; omega
  | failed hp =>
    refine dmeas_local (t := t) rfl rfl rfl rfl ?_
    show 3 * ([] : List Nat).length + _ < 3 * s.queue.length + _
    rw [List.length_nil]
    simp only [DThr.rank, hp]; omega
  | finArrive hp =>
    have hw := h.out (t := t) (by rw [hp]; rfl)
    have hn : ¬ ((s.thr t).lastTrig ≠ s.trig ∧ s.quit = false) := by
      rintro ⟨h1, h2⟩
      have hT := (h.n h2).thr t
      simp only [DTInv, hp] at hT
      exact h1 hT.1
    refine Nat.add_lt_add_left ?_ _
    unfold DS.sum
    apply sum_lt (t := t) (d := N)
    · rw [DS.setPc, dthr_self]
      show ({ s.thr t with pc := .finIn } : DThr).rank N s.quit s.trig + ((s.bar.arrive t).wt t).rank + N < _
      rw [arrive_wt_self hw]
      simp only [DThr.rank, hp]
      rw [if_neg hn]
      omega
    · exact .inl (Nat.le_refl _)
    · intro u hu
      rw [DS.setPc, dthr_ne _ _ hu]
      have := arrive_wt s.bar t u
      show (s.thr u).rank N s.quit s.trig + ((s.bar.arrive t).wt u).rank ≤ _
      omega
  | @recheck g hw =>
    have hself : ((s.bar.recheck t g).wt t).rank = 0 := by
      unfold Bar.recheck
      split <;> (show (Function.update s.bar.wt t _ t).rank = 0; rw [Function.update_self]; rfl)
    have hne : ∀ u, u ≠ t → (s.bar.recheck t g).wt u = s.bar.wt u := by
      intro u hu
      unfold Bar.recheck
      split <;> (show Function.update s.bar.wt t _ u = _; rw [Function.update_of_ne hu])
    refine Nat.add_lt_add_left ?_ _
    unfold DS.sum
    apply sum_lt (t := t) (d := 0)
    · show (s.thr t).rank N s.quit s.trig + ((s.bar.recheck t g).wt t).rank + 0 < _
      rw [hself, hw]
      show _ < _ + 1
      omega
    · right
      intro u hu
      show (s.thr u).rank N s.quit s.trig + ((s.bar.recheck t g).wt u).rank ≤ _
      rw [hne u hu]
    · intro u hu
      show (s.thr u).rank N s.quit s.trig + ((s.bar.recheck t g).wt u).rank ≤ _
      rw [hne u hu]
      omega
  | finOut hp hw =>
    refine dmeas_local (t := t) rfl rfl rfl rfl (Nat.add_lt_add_left ?_ _)
    by_cases h0 : t.val = 0
    · simp only [if_pos h0]
      simp only [DThr.rank, hp]
      split <;> omega
    · simp only [if_neg h0]
      simp only [DThr.rank, hp]
      split <;> omega
  | resetQuit hp hq =>
    refine dmeas_local (t := t) rfl rfl rfl rfl (Nat.add_lt_add_left ?_ _)
    simp only [DThr.rank, hp]
    split <;> omega
  | reset hp hq =>
    refine dmeas_local (t := t) rfl rfl rfl rfl (Nat.add_lt_add_left ?_ _)
    simp only [DThr.rank, hp]
    split <;> omega
  | callback hp =>
    refine dmeas_local (t := t) rfl rfl rfl rfl (Nat.add_lt_add_left ?_ _)
    simp only [DThr.rank, hp]
    split <;> omega
  | callbackDone hp =>
    refine dmeas_local (t := t) rfl rfl rfl rfl (Nat.add_lt_add_left ?_ _)
    simp only [DThr.rank, hp]
    split <;> omega

theorem dwork_acc (s : DS N) (h : DReach s) : Acc (fun s' s => ∃ t, DWork t s s') s := by
  have main : ∀ m : Nat, ∀ s : DS N, DReach s → s.meas = m → Acc (fun s' s => ∃ t, DWork t s s') s := by
    intro m
    induction m using Nat.strongRecOn with
    | _ m ih =>
      intro s hs hm
      refine Acc.intro _ ?_
      rintro s' ⟨t, hw⟩
      obtain ⟨arr, G, base, run, hi⟩ := dreach_inv hs
      have := dmeas_work hi hw
      exact ih _ (by rw [← hm]; exact this) s' (.work hs hw) rfl
  exact main _ s h rfl

/-! ## Traces -/

theorem dwork_log {t : Fin N} {s s' : DS N} (h : DWork t s s') :
    s'.quit = s.quit ∧ (s'.log = s.log ∨ ∃ e, s'.log = e :: s.log ∧ e.isStart = false ∧ e ≠ .destroy ∧
      (∀ c, e ≠ .finalize c) ∧ ∀ b, e ≠ .push b) := by
  cases h
  case popTake => exact ⟨rfl, .inr ⟨_, rfl, rfl, by simp, by simp, by simp⟩⟩
  case handleOk => exact ⟨rfl, .inr ⟨_, rfl, rfl, by simp, by simp, by simp⟩⟩
  case handleFail => exact ⟨rfl, .inr ⟨_, rfl, rfl, by simp, by simp, by simp⟩⟩
  case callback => exact ⟨rfl, .inr ⟨_, rfl, rfl, by simp, by simp, by simp⟩⟩
  all_goals exact ⟨rfl, .inl rfl⟩

theorem dreach_quit {s : DS N} (h : DReach s) : s.quit = true ↔ .destroy ∈ s.log := by
  induction h with
  | init => simp [DS.init]
  | work _ hs ih =>
    obtain ⟨h1, h2 | ⟨e, h2, _, h3, _⟩⟩ := dwork_log hs
    · rw [h1, h2]; exact ih
    · rw [h1, h2, ih, List.mem_cons]
      exact ⟨.inr, fun hx => hx.resolve_left fun he => h3 he.symm⟩
  | user _ hs ih =>
    cases hs with
    | start => simpa using ih
    | pushErr => simpa using ih
    | pushNone => simpa using ih
    | pushWake => simpa [DS.setPc, DS.setThr] using ih
    | finalize => simpa using ih
    | destroy => simp
  | spurious _ hs ih => cases hs <;> exact ih

theorem dreach_started {s : DS N} (h : DReach s) {c : Bool} (hf : .finalize c ∈ s.log) :
    dstarted s.log = true := by
  induction h with
  | init => cases hf
  | work _ hs ih =>
    obtain ⟨_, h2 | ⟨e, h2, h3, _, h4, _⟩⟩ := dwork_log hs
    · rw [h2] at hf ⊢; exact ih hf
    · rw [h2] at hf ⊢
      rw [dstarted_cons h3]
      rcases List.mem_cons.1 hf with hx | hx
      · exact absurd hx.symm (h4 c)
      · exact ih hx
  | user _ hs ih =>
    cases hs with
    | start => rfl
    | pushErr hq hm => exact hm.1
    | pushNone hq hm => exact hm.1
    | pushWake hq hm => exact hm.1
    | finalize hq hm => exact hm.1
    | destroy => exact ih (by simpa using hf)
  | spurious _ hs ih => cases hs <;> exact ih hf

/-- The trace up to the destructor. -/
theorem dreach_trace {s : DS N} (h : DReach s) :
    ∀ l2 l1, s.log = l2 ++ l1 → .destroy ∉ l1 → DTraceOk l1 := by
  have base : ∀ s : DS N, DReach s → .destroy ∉ s.log → DTraceOk s.log := by
    intro s hs hd
    obtain ⟨arr, G, base, run, hi⟩ := dreach_inv hs
    have hq : s.quit = false := by
      cases hq : s.quit with
      | false => rfl
      | true => exact absurd ((dreach_quit hs).1 hq) hd
    exact (hi.n hq).tr
  have cons : ∀ (s s' : DS N) (e : DEv), DReach s' → s'.log = e :: s.log →
      (∀ l2 l1, s.log = l2 ++ l1 → .destroy ∉ l1 → DTraceOk l1) →
      ∀ l2 l1, s'.log = l2 ++ l1 → .destroy ∉ l1 → DTraceOk l1 := by
    intro s s' e hs' he ih l2 l1 hl hd
    cases l2 with
    | nil =>
      have hl : s'.log = l1 := hl
      rw [← hl]
      exact base s' hs' (by rw [hl]; exact hd)
    | cons e2 l2 =>
      rw [he] at hl
      simp only [List.cons_append, List.cons.injEq] at hl
      exact ih l2 l1 hl.2 hd
  induction h with
  | init =>
    intro l2 l1 hl hd
    have : l1 = [] := by
      have hl' : l2 ++ l1 = [] := hl.symm
      exact (List.append_eq_nil_iff.1 hl').2
    rw [this]; trivial
  | work hr hs ih =>
    obtain ⟨_, h2 | ⟨e, h2, _, _⟩⟩ := dwork_log hs
    · rw [h2]; exact ih
    · exact cons _ _ e (.work hr hs) h2 ih
  | user hr hs ih =>
    have hr' := DReach.user hr hs
    cases hs with
    | start => exact cons _ _ _ hr' rfl ih
    | pushErr => exact cons _ _ _ hr' rfl ih
    | pushNone => exact cons _ _ _ hr' rfl ih
    | pushWake => exact cons _ _ _ hr' rfl ih
    | finalize => exact cons _ _ _ hr' rfl ih
    | destroy => exact cons _ _ _ hr' rfl ih
  | spurious _ hs ih => cases hs <;> exact ih

/-! ## Executing the model -/

/-- One step of thread `t`, the first one possible. -/
def DS.step (fail : Bool) (t : Fin N) (s : DS N) : Option (DS N) :=
  match s.bar.wt t with
  | .asleep _ => none
  | .awake g => some { s with bar := s.bar.recheck t g }
  | .out =>
  match (s.thr t).pc with
  | .top => if s.quit then some (s.setPc t .done) else some (s.setPc t .trig)
  | .trig => if s.trig ≠ (s.thr t).lastTrig ∨ s.quit = true then
      some (s.setThr t { pc := .pop, lastTrig := s.trig }) else some (s.setPc t .trigSleep)
  | .pop => if s.quit then some (s.setPc t .finArr) else
      match s.queue with
      | b :: q => some ({ s with queue := q, log := .begin b :: s.log }.setPc t (.handle b))
      | [] => if s.finalizing then some (s.setPc t .finArr) else some (s.setPc t .popSleep)
  | .handle b => if fail then some ({ s with log := .ended b false :: s.log }.setPc t .failed)
      else some ({ s with log := .ended b true :: s.log }.setPc t .pop)
  | .failed => some ({ s with error := true, queue := [] }.setPc t .pop)
  | .finArr => some ({ s with bar := s.bar.arrive t }.setPc t .finIn)
  | .finIn => some (s.setPc t (if t.val = 0 then .reset else .top))
  | .reset => if s.quit then some (s.setPc t .top) else
      some ({ s with error := false, finalizing := false }.setPc t (.callback (!s.error)))
  | .callback ok => some ({ s with log := .finalized ok :: s.log }.setPc t .inCallback)
  | .inCallback => some (s.setPc t .top)
  | _ => none

theorem dstep_work {fail : Bool} {t : Fin N} {s s' : DS N} (h : s.step fail t = some s') : DWork t s s' := by
  unfold DS.step at h
  split at h
  · cases h
  · rename_i g hw; cases h; exact .recheck hw
  · rename_i hw
    split at h
    case h_1 hp =>
      split at h
      · rename_i hq; cases h; exact .topQuit hp hq
      · rename_i hq; cases h; exact .topGo hp (by simpa using hq)
    case h_2 hp =>
      split at h
      · rename_i hq; cases h; exact .trigGo hp hq
      · rename_i hq
        cases h
        rw [not_or] at hq
        exact .trigWait hp ⟨by simpa using hq.1, by simpa using hq.2⟩
    case h_3 hp =>
      split at h
      · rename_i hq; cases h; exact .popBreak hp (.inr hq)
      · rename_i hq
        have hq : s.quit = false := by simpa using hq
        split at h
        · rename_i hb; cases h; exact .popTake hp hq hb
        · rename_i hb
          split at h
          · rename_i hf; cases h; exact .popBreak hp (.inl ⟨hf, hb⟩)
          · rename_i hf; cases h; exact .popWait hp ⟨hb, by simpa using hf, hq⟩
    case h_4 hp =>
      split at h
      · cases h; exact .handleFail hp
      · cases h; exact .handleOk hp
    case h_5 hp => cases h; exact .failed hp
    case h_6 hp => cases h; exact .finArrive hp
    case h_7 hp => cases h; exact .finOut hp hw
    case h_8 hp =>
      split at h
      · rename_i hq; cases h; exact .resetQuit hp hq
      · rename_i hq; cases h; exact .reset hp (by simpa using hq)
    case h_9 hp => cases h; exact .callback hp
    case h_10 hp => cases h; exact .callbackDone hp
    case h_11 => cases h

/-- What an execution does next; `push b t` wakes thread `t`. -/
inductive DAct (N : Nat)
  | go (t : Fin N) | bad (t : Fin N) | start | push (b : Nat) (t : Option (Fin N)) | fin (c : Bool) | kill
  deriving DecidableEq

instance (tr : List DEv) : Decidable (dmayStart tr) := by
  unfold dmayStart
  have : Decidable (∃ ok, DEv.finalized ok ∈ dcurOp tr) :=
    decidable_of_iff (DEv.finalized true ∈ dcurOp tr ∨ DEv.finalized false ∈ dcurOp tr) (by
      constructor
      · rintro (h | h)
        · exact ⟨_, h⟩
        · exact ⟨_, h⟩
      · rintro ⟨ok, h⟩
        cases ok
        · exact .inr h
        · exact .inl h)
  infer_instance

instance (tr : List DEv) : Decidable (dmayPush tr) := by
  unfold dmayPush
  infer_instance

def DS.act (s : DS N) : DAct N → Option (DS N)
  | .go t => s.step false t
  | .bad t => s.step true t
  | .start => if s.quit = false ∧ dmayStart s.log then
      some { s with trig := s.trig + 1, thr := fun t => (s.thr t).wakeT, log := .start :: s.log } else none
  | .push b w => if s.quit = false ∧ dmayPush s.log then
      if s.error then some { s with log := .refused b :: s.log } else
      match w with
      | none => if ∀ t, (s.thr t).pc ≠ .popSleep then
          some { s with queue := s.queue ++ [b], log := .push b :: s.log } else none
      | some t => if (s.thr t).pc = .popSleep then
          some ({ s with queue := s.queue ++ [b], log := .push b :: s.log }.setPc t .pop) else none
    else none
  | .fin cancel => if s.quit = false ∧ dmayPush s.log then some { s with
        finalizing := true, queue := if cancel then [] else s.queue, thr := fun t => (s.thr t).wakeQ
        log := .finalize cancel :: s.log } else none
  | .kill => if s.quit = false then some { s with
        quit := true, thr := fun t => (s.thr t).wakeT.wakeQ, bar := s.bar.interrupt, log := .destroy :: s.log } else none

def DS.acts : List (DAct N) → DS N → Option (DS N)
  | [], s => some s
  | a :: as, s => (s.act a).bind (DS.acts as)

theorem dacts_reach {as : List (DAct N)} : ∀ {s s' : DS N}, DReach s → s.acts as = some s' → DReach s' := by
  induction as with
  | nil =>
    intro s s' h he
    cases he; exact h
  | cons a as ih =>
    intro s s' h he
    rw [DS.acts] at he
    cases ha : s.act a with
    | none => rw [ha] at he; cases he
    | some s1 =>
      rw [ha] at he
      refine ih ?_ he
      cases a with
      | go t => exact .work h (dstep_work ha)
      | bad t => exact .work h (dstep_work ha)
      | start =>
        simp only [DS.act] at ha
        split at ha
        · rename_i hc; cases ha; exact .user h (.start hc.1 hc.2)
        · cases ha
      | push b w =>
        simp only [DS.act] at ha
        split at ha
        · rename_i hc
          split at ha
          · rename_i her; cases ha; exact .user h (.pushErr hc.1 hc.2 her)
          · rename_i her
            have her : s.error = false := by simpa using her
            split at ha
            · split at ha
              · rename_i hn; cases ha; exact .user h (.pushNone hc.1 hc.2 her hn)
              · cases ha
            · split at ha
              · rename_i hn; cases ha; exact .user h (.pushWake hc.1 hc.2 her hn)
              · cases ha
        · cases ha
      | fin c =>
        simp only [DS.act] at ha
        split at ha
        · rename_i hc; cases ha; exact .user h (.finalize hc.1 hc.2)
        · cases ha
      | kill =>
        simp only [DS.act] at ha
        split at ha
        · rename_i hc; cases ha; exact .user h (.destroy hc)
        · cases ha

end Lib842
