import Verif.Proofs.DecompStream2
/-!
# Invariants of the decompression stream: operations
-/

namespace Lib842
open Spec

variable {N : Nat}

theorem wakeT_props (th : DThr) : th.wakeT.pc.inBar = th.pc.inBar ∧ th.wakeT.pc.cb = th.pc.cb ∧
    th.wakeT.pc.rest = th.pc.rest ∧ th.wakeT.lastTrig = th.lastTrig ∧
    (∀ b, th.wakeT.pc = .handle b ↔ th.pc = .handle b) ∧ (∀ ok, th.wakeT.pc = .callback ok ↔ th.pc = .callback ok) ∧
    (th.wakeT.pc = .failed ↔ th.pc = .failed) ∧ (th.wakeT.pc = .popSleep ↔ th.pc = .popSleep) ∧
    th.wakeT.pc ≠ .trigSleep := by
  unfold DThr.wakeT
  split
  · rename_i h; simp [h, DPc.inBar, DPc.cb, DPc.rest]
  · rename_i h; simp; exact h

theorem wakeQ_props (th : DThr) : th.wakeQ.pc.inBar = th.pc.inBar ∧ th.wakeQ.pc.cb = th.pc.cb ∧
    th.wakeQ.pc.rest = th.pc.rest ∧ th.wakeQ.lastTrig = th.lastTrig ∧
    (∀ b, th.wakeQ.pc = .handle b ↔ th.pc = .handle b) ∧ (∀ ok, th.wakeQ.pc = .callback ok ↔ th.pc = .callback ok) ∧
    (th.wakeQ.pc = .failed ↔ th.pc = .failed) ∧ (th.wakeQ.pc = .trigSleep ↔ th.pc = .trigSleep) ∧
    th.wakeQ.pc ≠ .popSleep := by
  unfold DThr.wakeQ
  split
  · rename_i h; simp [h, DPc.inBar, DPc.cb, DPc.rest]
  · rename_i h; simp; exact h

section steps
variable {s : DS N} {arr : Fin N → Nat} {G base : Nat} {run : Bool} {t : Fin N}

theorem dinv_reset (h : DInv s arr G base run) (hpc : (s.thr t).pc = .reset) (hq : s.quit = false) :
    DInv ({ s with error := false, finalizing := false }.setPc t (.callback (!s.error))) arr G base false := by
  have hw := h.out (t := t) (by rw [hpc]; rfl)
  have hN := h.n hq
  have hT := hN.thr t
  simp only [DTInv, hpc] at hT
  obtain ⟨l1, l2, l3, l4, l5, l6⟩ := hT
  have hr : run = true := l4
  have l3' : arr t = base + 1 := l3
  have l5' : s.finalizing = true := l5
  have l6' : s.queue = [] := l6
  obtain ⟨r2, r3, r4⟩ := hN.runT hr
  have hG := hN.bar.out_arr hw
  have hall : ∀ u, arr u = base + 1 := by
    intro u
    have h1 : arr u ≤ base + 1 := (hN.thr u).le
    have h2 := hN.bar.ph u
    omega
  have hend : ∀ u, (s.thr u).lastTrig = s.trig ∧ ((s.thr u).pc.rest = true ∨ (s.thr u).pc = .finIn ∨
      (s.thr u).pc = .reset ∨ (s.thr u).pc.cb = true) := fun u => (hN.thr u).atEnd (hall u)
  have noHold : ∀ u, (s.thr u).pc.holds = false ∧ (s.thr u).pc ≠ .failed := by
    intro u
    rcases (hend u).2 with h1 | h1 | h1 | h1
    · cases hp : (s.thr u).pc <;> rw [hp] at h1 <;> simp [DPc.rest] at h1 <;> simp [DPc.holds]
    · simp [DPc.holds, h1]
    · simp [DPc.holds, h1]
    · cases hp : (s.thr u).pc <;> rw [hp] at h1 <;> simp [DPc.cb] at h1 <;> simp [DPc.holds]
  have hB : DBInv ({ s with error := false, finalizing := false } : DS N) := ⟨h.b.hist, h.b.le⟩
  show DInv ({ s with error := false, finalizing := false }.setThr t { s.thr t with pc := .callback (!s.error) })
    arr G base false
  refine ⟨hB.local (noHold t).1 rfl, fun _ => ?_, fun hq' => ?_⟩
  · exact
    { bar := hN.bar
      thr := by
        apply forall_dthr (P := fun u x => DTInv ⟨s.trig, false, s.queue, base, false⟩ (dlead u) (arr u) x)
        · simp only [DTInv]
          exact ⟨l1, l2, l3', trivial⟩
        · intro u hu
          have hl : dlead u = false := by
            cases hx : dlead u with
            | false => rfl
            | true => exact absurd (dlead_inj hx l1) hu
          have hTu := hN.thr u
          have ha := hall u
          have hlt := (hend u).1
          rcases (hend u).2 with h1 | h1 | h1 | h1
          · cases hp : (s.thr u).pc <;> rw [hp] at h1 <;> simp [DPc.rest] at h1
            · simp only [DTInv, hp]; exact .inl ⟨hlt, ha⟩
            · simp only [DTInv, hp]; exact .inl ⟨hlt, ha⟩
            · simp only [DTInv, hp]; exact ⟨hlt, ha⟩
            · simp only [DTInv, hp] at hTu
              rw [hl] at hTu; cases hTu.1
          · simp only [DTInv, h1]
            left
            exact ⟨hlt, ha, fun hx => (by cases hx), fun hx => (by rw [hl] at hx; cases hx)⟩
          · simp only [DTInv, h1] at hTu
            rw [hl] at hTu; cases hTu.1
          · cases hp : (s.thr u).pc <;> rw [hp] at h1 <;> simp [DPc.cb] at h1
            exact absurd hp (hN.noCallback hr u _)
      wtOut := by
        apply forall_dthr (P := fun u x => x.pc.inBar = false → s.bar.wt u = .out)
        · exact fun _ => hw
        · exact fun u _ => hN.wtOut u
      runT := fun hx => by cases hx
      lead := fun hx => by cases hx
      err := fun hx => by cases hx
      eq := fun hx => by cases hx
      runF := fun _ => ⟨l6', rfl, rfl, hall, fun _ => r4.1 l5'⟩
      cb := fun u ok hx => by
        by_cases hu : u = t
        · subst hu
          rw [dthr_self] at hx
          have hok : ok = !s.error := by
            have : DPc.callback (!s.error) = DPc.callback ok := hx
            injection this with this
            exact this.symm
          subst hok
          refine ⟨r2, r4.1 l5', r3, fun b => ?_, ?_, fun hok hc b => ?_⟩
          · have h1 := h.b.hist b
            rw [holders_zero (fun w => (noHold w).1)] at h1
            exact h1
          · have : (!s.error) = false ↔ s.error = true := by cases s.error <;> simp
            rw [this]
            refine Iff.trans ?_ (hN.err hr).symm
            constructor
            · exact .inl
            · rintro (h1 | ⟨w, h1⟩)
              · exact h1
              · exact absurd h1 (noHold w).2
          · have hne : s.error = false := by
              cases he : s.error
              · rfl
              · rw [he] at hok; cases hok
            have h1 := hN.eq hr hne hc b
            rw [l6', List.count_nil, Nat.zero_add] at h1
            exact h1
        · rw [dthr_ne _ _ hu] at hx
          exact absurd hx (hN.noCallback hr u ok)
      noCb := fun _ _ hall => by
        have := hall t
        rw [dthr_self] at this; cases this
      wake := fun hx => absurd l6' hx
      tr := hN.tr }
  · have : s.quit = true := hq'
    rw [hq] at this; cases this

theorem dinv_callback {ok : Bool} (h : DInv s arr G base run) (hpc : (s.thr t).pc = .callback ok) :
    DInv ({ s with log := .finalized ok :: s.log }.setPc t .inCallback) arr G base run := by
  have hw := h.out (t := t) (by rw [hpc]; rfl)
  have hco : dcurOp (.finalized ok :: s.log) = .finalized ok :: dcurOp s.log := dcurOp_cons rfl _
  have hB : DBInv ({ s with log := .finalized ok :: s.log } : DS N) :=
    ⟨fun b => by
      show (ends (dcurOp (.finalized ok :: s.log))).count b + _ = (begins (dcurOp (.finalized ok :: s.log))).count b
      rw [hco]; exact h.b.hist b,
     fun b => by
      show _ + (begins (dcurOp (.finalized ok :: s.log))).count b ≤ (pushes (dcurOp (.finalized ok :: s.log))).count b
      rw [hco]; exact h.b.le b⟩
  show DInv ({ s with log := .finalized ok :: s.log }.setThr t { s.thr t with pc := .inCallback }) arr G base run
  refine ⟨hB.local (by show (s.thr t).pc.holds = false; rw [hpc]; rfl) rfl, fun hq => ?_, fun hq => ?_⟩
  · have hN := h.n hq
    have hT := hN.thr t
    simp only [DTInv, hpc] at hT
    obtain ⟨l1, l2, l3, l4⟩ := hT
    have hr : run = false := l4
    obtain ⟨f1, f3, f4, f5, f6⟩ := hN.runF hr
    exact
    { bar := hN.bar
      thr := by
        apply forall_dthr (P := fun u x => DTInv (dview s base run) (dlead u) (arr u) x)
        · simp only [DTInv]
          exact ⟨l1, .inl ⟨l2, l3⟩⟩
        · exact fun u _ => hN.thr u
      wtOut := by
        apply forall_dthr (P := fun u x => x.pc.inBar = false → s.bar.wt u = .out)
        · exact fun _ => hw
        · exact fun u _ => hN.wtOut u
      runT := fun hx => by rw [hr] at hx; cases hx
      lead := fun hx => by rw [hr] at hx; cases hx
      err := fun hx => by rw [hr] at hx; cases hx
      eq := fun hx => by rw [hr] at hx; cases hx
      runF := fun _ => by
        refine ⟨f1, f3, f4, f5, fun hs => ?_⟩
        obtain ⟨c, hc⟩ := f6 hs
        refine ⟨c, ?_⟩
        show _ ∈ dcurOp (.finalized ok :: s.log)
        rw [hco]; exact List.mem_cons_of_mem _ hc
      cb := fun u ok' hx => by
        exfalso
        by_cases hu : u = t
        · subst hu
          rw [dthr_self] at hx; cases hx
        · rw [dthr_ne _ _ hu] at hx
          have hx : (s.thr u).pc = .callback ok' := hx
          have hTu := hN.thr u
          simp only [DTInv, hx] at hTu
          exact hu (dlead_inj hTu.1 l1)
      noCb := fun _ _ _ => ⟨ok, by
        show _ ∈ dcurOp (.finalized ok :: s.log)
        rw [hco]; exact List.mem_cons_self⟩
      wake := fun hx => absurd f1 hx
      tr := ⟨(hN.cb t ok hpc).2, hN.tr⟩ }
  · have hQ := h.q hq
    have h1 : DQInv ({ s with log := .finalized ok :: s.log } : DS N) :=
      { bar := hQ.bar, sleep := hQ.sleep, wtOut := hQ.wtOut }
    exact h1.local (fun _ => hw) rfl

/-! ## The user -/

theorem dinv_start (h : DInv s arr G base run) (hq : s.quit = false) (hm : dmayStart s.log) :
    DInv { s with trig := s.trig + 1, thr := fun t => (s.thr t).wakeT, log := .start :: s.log }
      arr G (base + 1) true := by
  have hN := h.n hq
  have hr : run = false := by
    cases hr : run with
    | false => rfl
    | true =>
      obtain ⟨r2, r3, _⟩ := hN.runT hr
      rcases hm with h1 | ⟨ok, h1⟩
      · rw [r2] at h1; cases h1
      · exact absurd h1 (r3 ok)
  obtain ⟨f1, f3, f4, f5, f6⟩ := hN.runF hr
  have noCb : ∀ u ok, (s.thr u).pc ≠ .callback ok := by
    intro u ok hu
    obtain ⟨c1, _, c3, _⟩ := hN.cb u ok hu
    rcases hm with h1 | ⟨ok', h1⟩
    · rw [c1] at h1; cases h1
    · exact c3 ok' h1
  have pcs : ∀ u, (s.thr u).lastTrig = s.trig ∧ ((s.thr u).pc = .top ∨ (s.thr u).pc = .trig ∨
      (s.thr u).pc = .trigSleep ∨ (dlead u = true ∧ (s.thr u).pc = .inCallback) ∨
      (dlead u = false ∧ (s.thr u).pc = .finIn)) := by
    intro u
    have hTu := hN.thr u
    obtain ⟨e1, e2⟩ := hTu.atEnd (f5 u)
    refine ⟨e1, ?_⟩
    rcases e2 with h1 | h1 | h1 | h1
    · cases hp : (s.thr u).pc <;> rw [hp] at h1 <;> simp [DPc.rest] at h1
      · simp
      · simp
      · simp
      · simp only [DTInv, hp] at hTu
        simp [hTu.1]
    · simp only [DTInv, h1] at hTu
      right; right; right; right
      refine ⟨?_, h1⟩
      rcases hTu with hTu | hTu
      · cases hl : dlead u with
        | false => rfl
        | true =>
          have : run = true := hTu.2.2.2 hl
          rw [hr] at this; cases this
      · exact hTu.2.2
    · simp only [DTInv, h1] at hTu
      have : run = true := hTu.2.2.2.1
      rw [hr] at this; cases this
    · cases hp : (s.thr u).pc <;> rw [hp] at h1 <;> simp [DPc.cb] at h1
      exact absurd hp (noCb u _)
  have noHold : ∀ u, (s.thr u).wakeT.pc.holds = false ∧ (s.thr u).wakeT.pc ≠ .failed ∧ (s.thr u).wakeT.pc ≠ .popSleep := by
    intro u
    rcases (pcs u).2 with h1 | h1 | h1 | ⟨_, h1⟩ | ⟨_, h1⟩ <;> simp [DThr.wakeT, h1, DPc.holds]
  have hco : dcurOp (.start :: s.log) = [] := dcurOp_start _
  refine ⟨⟨fun b => ?_, fun b => ?_⟩, fun _ => ?_, fun hq' => ?_⟩
  · show (ends (dcurOp (.start :: s.log))).count b + _ = (begins (dcurOp (.start :: s.log))).count b
    rw [hco, holders_zero fun u => (noHold u).1]; rfl
  · show s.queue.count b + (begins (dcurOp (.start :: s.log))).count b ≤ (pushes (dcurOp (.start :: s.log))).count b
    rw [hco, f1]; exact Nat.le_refl _
  · exact
    { bar := hN.bar
      thr := fun u => by
        obtain ⟨e1, e2⟩ := pcs u
        have e1' : (s.thr u).lastTrig + 1 = s.trig + 1 := by rw [e1]
        have ha := f5 u
        show DTInv ⟨s.trig + 1, s.finalizing, s.queue, base + 1, true⟩ (dlead u) (arr u) (s.thr u).wakeT
        rcases e2 with h1 | h1 | h1 | ⟨hl, h1⟩ | ⟨hl, h1⟩
        · simp only [DThr.wakeT, h1, DTInv]; exact .inr ⟨e1', ha⟩
        · simp only [DThr.wakeT, h1, DTInv]; exact .inr ⟨e1', ha⟩
        · simp only [DThr.wakeT, h1, DTInv]; exact .inr ⟨e1', ha⟩
        · simp only [DThr.wakeT, h1, DTInv]; exact ⟨hl, .inr ⟨e1', ha⟩⟩
        · simp only [DThr.wakeT, h1, DTInv]; exact .inr ⟨e1', ha, hl⟩
      wtOut := fun u hu => by
        have hu : (s.thr u).wakeT.pc.inBar = false := hu
        rw [(wakeT_props _).1] at hu
        exact hN.wtOut u hu
      runT := fun _ => by
        show true = true ∧ (∀ ok, .finalized ok ∉ dcurOp (.start :: s.log)) ∧
          (s.finalizing = true ↔ ∃ c, .finalize c ∈ dcurOp (.start :: s.log))
        rw [hco, f4]
        simp
      lead := fun _ u _ _ => by
        show (s.thr u).wakeT.lastTrig ≠ s.trig + 1
        rw [(wakeT_props _).2.2.2.1, (pcs u).1]
        exact (succ_ne32 _).symm
      err := fun _ => by
        show (∃ b, .ended b false ∈ dcurOp (.start :: s.log)) ↔ s.error = true ∨ ∃ u, (s.thr u).wakeT.pc = .failed
        rw [hco, f3]
        constructor
        · rintro ⟨_, h1⟩; cases h1
        · rintro (h1 | ⟨u, h1⟩)
          · cases h1
          · exact absurd h1 (noHold u).2.1
      eq := fun _ _ _ b => by
        show s.queue.count b + (begins (dcurOp (.start :: s.log))).count b = (pushes (dcurOp (.start :: s.log))).count b
        rw [hco, f1]; rfl
      runF := fun hx => by cases hx
      cb := fun u ok hx => by
        have hx : (s.thr u).wakeT.pc = .callback ok := hx
        exact absurd (((wakeT_props _).2.2.2.2.2.1 ok).1 hx) (noCb u ok)
      noCb := fun hx => by cases hx
      wake := fun hx => absurd f1 hx
      tr := ⟨trivial, hN.tr⟩ }
  · have : s.quit = true := hq'
    rw [hq] at this; cases this

/-- An operation runs when blocks may be pushed. -/
theorem DNInv.push_run (hN : DNInv s arr G base run) (hm : dmayPush s.log) :
    run = true ∧ s.finalizing = false := by
  have hr : run = true := by
    cases hr : run with
    | true => rfl
    | false =>
      obtain ⟨c, hc⟩ := (hN.runF hr).2.2.2.2 hm.1
      exact absurd hc (hm.2 c)
  refine ⟨hr, ?_⟩
  cases hf : s.finalizing with
  | false => rfl
  | true =>
    obtain ⟨c, hc⟩ := (hN.runT hr).2.2.1 hf
    exact absurd hc (hm.2 c)

theorem dinv_pushErr {b : Nat} (h : DInv s arr G base run) (hq : s.quit = false) (hm : dmayPush s.log)
    (he : s.error = true) : DInv { s with log := .refused b :: s.log } arr G base run := by
  have hN := h.n hq
  obtain ⟨hr, _⟩ := hN.push_run hm
  obtain ⟨r1, r2, r3⟩ := hN.runT hr
  have hco : dcurOp (.refused b :: s.log) = .refused b :: dcurOp s.log := dcurOp_cons rfl _
  refine ⟨⟨fun c => ?_, fun c => ?_⟩, fun _ => ?_, fun hq' => ?_⟩
  · show (ends (dcurOp (.refused b :: s.log))).count c + _ = (begins (dcurOp (.refused b :: s.log))).count c
    rw [hco]; exact h.b.hist c
  · show _ + (begins (dcurOp (.refused b :: s.log))).count c ≤ (pushes (dcurOp (.refused b :: s.log))).count c
    rw [hco]; exact h.b.le c
  · exact
    { bar := hN.bar
      thr := hN.thr
      wtOut := hN.wtOut
      runT := fun _ => by
        show dstarted (.refused b :: s.log) = true ∧ (∀ ok, .finalized ok ∉ dcurOp (.refused b :: s.log)) ∧
          (s.finalizing = true ↔ ∃ c, .finalize c ∈ dcurOp (.refused b :: s.log))
        rw [hco, dstarted_cons rfl]
        refine ⟨r1, ?_, ?_⟩
        · simpa using r2
        · simpa using r3
      lead := hN.lead
      err := fun _ => by
        show (∃ c, .ended c false ∈ dcurOp (.refused b :: s.log)) ↔ _
        rw [hco]
        simpa using hN.err hr
      eq := fun _ h1 => by
        have h1 : s.error = false := h1
        rw [he] at h1; cases h1
      runF := fun hx => by rw [hr] at hx; cases hx
      cb := fun u ok hx => absurd hx (hN.noCallback hr u ok)
      noCb := fun hx => by rw [hr] at hx; cases hx
      wake := hN.wake
      tr := ⟨(hN.err hr).2 (.inl he), hN.tr⟩ }
  · have : s.quit = true := hq'
    rw [hq] at this; cases this

theorem dinv_push {b : Nat} (h : DInv s arr G base run) (hq : s.quit = false) (hm : dmayPush s.log)
    (hwk : (∃ t, (s.thr t).pc.active = true) ∨ ∀ t, (s.thr t).pc ≠ .popSleep) :
    DInv { s with queue := s.queue ++ [b], log := .push b :: s.log } arr G base run := by
  have hN := h.n hq
  obtain ⟨hr, hf⟩ := hN.push_run hm
  obtain ⟨r1, r2, r3⟩ := hN.runT hr
  have hco : dcurOp (.push b :: s.log) = .push b :: dcurOp s.log := dcurOp_cons rfl _
  have hcnt : ∀ c, (s.queue ++ [b]).count c = s.queue.count c + if b = c then 1 else 0 := by
    intro c
    rw [List.count_append, count_cons', List.count_nil, Nat.zero_add]
  refine ⟨⟨fun c => ?_, fun c => ?_⟩, fun _ => ?_, fun hq' => ?_⟩
  · show (ends (dcurOp (.push b :: s.log))).count c + _ = (begins (dcurOp (.push b :: s.log))).count c
    rw [hco]; exact h.b.hist c
  · show (s.queue ++ [b]).count c + (begins (dcurOp (.push b :: s.log))).count c ≤
      (pushes (dcurOp (.push b :: s.log))).count c
    rw [hco, pushes_push, count_cons', hcnt c,
      show begins (.push b :: dcurOp s.log) = begins (dcurOp s.log) from rfl]
    have := h.b.le c
    omega
  · exact
    { bar := hN.bar
      thr := fun u => (hN.thr u).queue (q := s.queue ++ [b]) fun _ hx => by
        have hx : s.finalizing = true := hx
        rw [hf] at hx; cases hx
      wtOut := hN.wtOut
      runT := fun _ => by
        show dstarted (.push b :: s.log) = true ∧ (∀ ok, .finalized ok ∉ dcurOp (.push b :: s.log)) ∧
          (s.finalizing = true ↔ ∃ c, .finalize c ∈ dcurOp (.push b :: s.log))
        rw [hco, dstarted_cons rfl]
        refine ⟨r1, ?_, ?_⟩
        · simpa using r2
        · simpa using r3
      lead := hN.lead
      err := fun _ => by
        show (∃ c, .ended c false ∈ dcurOp (.push b :: s.log)) ↔ _
        rw [hco]
        simpa using hN.err hr
      eq := fun _ h1 h2 c => by
        show (s.queue ++ [b]).count c + (begins (dcurOp (.push b :: s.log))).count c =
          (pushes (dcurOp (.push b :: s.log))).count c
        have h2 : .finalize true ∉ dcurOp (.push b :: s.log) := h2
        rw [hco] at h2
        rw [hco, pushes_push, count_cons', hcnt c,
          show begins (.push b :: dcurOp s.log) = begins (dcurOp s.log) from rfl]
        have := hN.eq hr h1 (by simpa using h2) c
        omega
      runF := fun hx => by rw [hr] at hx; cases hx
      cb := fun u ok hx => absurd hx (hN.noCallback hr u ok)
      noCb := fun hx => by rw [hr] at hx; cases hx
      wake := fun _ => hwk
      tr := ⟨trivial, hN.tr⟩ }
  · have : s.quit = true := hq'
    rw [hq] at this; cases this

theorem dinv_pushWake {b : Nat} (h : DInv s arr G base run) (hq : s.quit = false) (hm : dmayPush s.log)
    (hn : (s.thr t).pc = .popSleep) :
    DInv ({ s with queue := s.queue ++ [b], log := .push b :: s.log }.setPc t .pop) arr G base run := by
  have h1 := dinv_spuriousQ h hn
  have h2 := dinv_push (b := b) h1 hq hm (.inl ⟨t, by rw [DS.setPc, dthr_self]; rfl⟩)
  exact h2

theorem DTInv.finalize {v : DV} {l : Bool} {a : Nat} {th : DThr} (h : DTInv v l a th) :
    DTInv { v with fin := true } l a th.wakeQ := by
  cases hp : th.pc <;> simp only [DTInv, hp] at h <;> simp only [DThr.wakeQ, hp, DTInv]
  all_goals first
    | exact h
    | exact ⟨h.1, h.2.1, h.2.2.1⟩
    | exact ⟨h.1, h.2.1, h.2.2.1, trivial, h.2.2.2.2⟩
    | (rcases h with h | h
       · exact .inl ⟨h.1, h.2.1, fun hr => ⟨trivial, (h.2.2.1 hr).2⟩, h.2.2.2⟩
       · exact .inr h)
    | exact ⟨h.1, h.2.1, h.2.2.1, h.2.2.2.1, trivial, h.2.2.2.2.2⟩

theorem dinv_finalize {cancel : Bool} (h : DInv s arr G base run) (hq : s.quit = false) (hm : dmayPush s.log) :
    DInv { s with
        finalizing := true, queue := if cancel then [] else s.queue, thr := fun t => (s.thr t).wakeQ
        log := .finalize cancel :: s.log } arr G base run := by
  have hN := h.n hq
  obtain ⟨hr, hf⟩ := hN.push_run hm
  obtain ⟨r1, r2, r3⟩ := hN.runT hr
  have hco : dcurOp (.finalize cancel :: s.log) = .finalize cancel :: dcurOp s.log := dcurOp_cons rfl _
  refine ⟨⟨fun c => ?_, fun c => ?_⟩, fun _ => ?_, fun hq' => ?_⟩
  · show (ends (dcurOp (.finalize cancel :: s.log))).count c + holders (fun t => (s.thr t).wakeQ) c =
      (begins (dcurOp (.finalize cancel :: s.log))).count c
    rw [hco, holders_eq (thr := s.thr) fun u => (wakeQ_props _).2.2.2.2.1 c]; exact h.b.hist c
  · show (if cancel then [] else s.queue).count c + (begins (dcurOp (.finalize cancel :: s.log))).count c ≤
      (pushes (dcurOp (.finalize cancel :: s.log))).count c
    have h1 := h.b.le c
    rw [hco, show begins (.finalize cancel :: dcurOp s.log) = begins (dcurOp s.log) from rfl,
      show pushes (.finalize cancel :: dcurOp s.log) = pushes (dcurOp s.log) from rfl]
    cases cancel
    · exact h1
    · rw [if_pos rfl, List.count_nil]; omega
  · exact
    { bar := hN.bar
      thr := fun u => ((hN.thr u).finalize).queue (q := if cancel then [] else s.queue) fun hx _ => by
        have hx : s.queue = [] := hx
        rw [hx]; cases cancel <;> rfl
      wtOut := fun u hu => by
        have hu : (s.thr u).wakeQ.pc.inBar = false := hu
        rw [(wakeQ_props _).1] at hu
        exact hN.wtOut u hu
      runT := fun _ => by
        show dstarted (.finalize cancel :: s.log) = true ∧ (∀ ok, .finalized ok ∉ dcurOp (.finalize cancel :: s.log)) ∧
          (true = true ↔ ∃ c, .finalize c ∈ dcurOp (.finalize cancel :: s.log))
        rw [hco, dstarted_cons rfl]
        refine ⟨r1, ?_, fun _ => ⟨cancel, List.mem_cons_self⟩, fun _ => rfl⟩
        simpa using r2
      lead := fun hr u hl hx => by
        have hx : (s.thr u).wakeQ.pc.rest = true := hx
        show (s.thr u).wakeQ.lastTrig ≠ s.trig
        rw [(wakeQ_props _).2.2.1] at hx
        rw [(wakeQ_props _).2.2.2.1]
        exact hN.lead hr u hl hx
      err := fun _ => by
        show (∃ c, .ended c false ∈ dcurOp (.finalize cancel :: s.log)) ↔ s.error = true ∨
          ∃ u, (s.thr u).wakeQ.pc = .failed
        rw [hco]
        have : (∃ u, (s.thr u).wakeQ.pc = .failed) ↔ ∃ u, (s.thr u).pc = .failed :=
          exists_congr fun u => (wakeQ_props _).2.2.2.2.2.2.1
        rw [this]
        simpa using hN.err hr
      eq := fun _ h1 h2 c => by
        show (if cancel then [] else s.queue).count c + (begins (dcurOp (.finalize cancel :: s.log))).count c =
          (pushes (dcurOp (.finalize cancel :: s.log))).count c
        have h2 : .finalize true ∉ dcurOp (.finalize cancel :: s.log) := h2
        rw [hco] at h2
        rw [hco]
        cases cancel
        · exact hN.eq hr h1 (by simpa using h2) c
        · exact absurd List.mem_cons_self h2
      runF := fun hx => by rw [hr] at hx; cases hx
      cb := fun u ok hx => by
        have hx : (s.thr u).wakeQ.pc = .callback ok := hx
        exact absurd (((wakeQ_props _).2.2.2.2.2.1 ok).1 hx) (hN.noCallback hr u ok)
      noCb := fun hx => by rw [hr] at hx; cases hx
      wake := fun _ => .inr fun u => (wakeQ_props _).2.2.2.2.2.2.2.2
      tr := ⟨trivial, hN.tr⟩ }
  · have : s.quit = true := hq'
    rw [hq] at this; cases this

theorem dinv_destroy (h : DInv s arr G base run) (hq : s.quit = false) :
    DInv { s with
        quit := true, thr := fun t => (s.thr t).wakeT.wakeQ, bar := s.bar.interrupt, log := .destroy :: s.log }
      arr G base run := by
  have hN := h.n hq
  have hco : dcurOp (.destroy :: s.log) = .destroy :: dcurOp s.log := dcurOp_cons rfl _
  refine ⟨⟨fun c => ?_, fun c => ?_⟩, fun hq' => ?_, fun _ => ?_⟩
  · show (ends (dcurOp (.destroy :: s.log))).count c + holders (fun t => (s.thr t).wakeT.wakeQ) c =
      (begins (dcurOp (.destroy :: s.log))).count c
    rw [hco, holders_eq (thr := s.thr) fun u =>
      ((wakeQ_props _).2.2.2.2.1 c).trans ((wakeT_props _).2.2.2.2.1 c)]
    exact h.b.hist c
  · show s.queue.count c + (begins (dcurOp (.destroy :: s.log))).count c ≤ (pushes (dcurOp (.destroy :: s.log))).count c
    rw [hco]; exact h.b.le c
  · cases hq'
  · refine ⟨barAwake_interrupt, fun u => ?_, fun u hu => ?_⟩
    · show (s.thr u).wakeT.wakeQ.pc.sleeps = false
      have h1 := (wakeQ_props (s.thr u).wakeT).2.2.2.2.2.2.2
      have h2 := (wakeT_props (s.thr u)).2.2.2.2.2.2.2.2
      cases hp : (s.thr u).wakeT.wakeQ.pc <;> simp [DPc.sleeps]
      · exact h2 (h1.1.1 hp)
      · exact h1.2 hp
    · have hu : (s.thr u).wakeT.wakeQ.pc.inBar = false := hu
      rw [(wakeQ_props _).1, (wakeT_props _).1] at hu
      show (s.bar.wt u).wake = .out
      rw [hN.wtOut u hu]; rfl

theorem dinv_init : DInv (DS.init N) (fun _ => 2 ^ 32) (2 ^ 32) (2 ^ 32 - 1) false := by
  refine ⟨⟨fun b => ?_, fun b => ?_⟩, fun _ => ?_, fun hq => ?_⟩
  · show 0 + holders (DS.init N).thr b = 0
    rw [holders_zero (fun _ => rfl)]
  · exact Nat.le_refl _
  · exact
    { bar :=
        { intr := rfl
          gen := by rw [show Bar.gen (DS.init N).bar = 0 from rfl]; decide
          ph := fun _ => .inl rfl
          cnt := by simp [DS.init, Bar.init]
          lt := fun h => h
          new := fun _ h => by simp at h
          old := fun _ _ => .inl rfl }
      thr := fun u => by
        show DTInv ⟨0, false, [], 2 ^ 32 - 1, false⟩ (dlead u) (2 ^ 32) { pc := .top, lastTrig := 0 }
        simp only [DTInv]
        left
        exact ⟨trivial, by decide⟩
      wtOut := fun _ _ => rfl
      runT := fun hx => by cases hx
      lead := fun hx => by cases hx
      err := fun hx => by cases hx
      eq := fun hx => by cases hx
      runF := fun _ => ⟨rfl, rfl, rfl, fun u => by decide, fun hx => by cases hx⟩
      cb := fun u ok hx => by cases hx
      noCb := fun _ hx => by cases hx
      wake := fun hx => absurd rfl hx
      tr := trivial }
  · cases hq

theorem dinv_work (h : DInv s arr G base run) {s' : DS N} (hs : DWork t s s') : DInvE s' := by
  cases hs with
  | topQuit hp hq => exact ⟨_, _, _, _, dinv_topQuit h hp hq⟩
  | topGo hp hq => exact ⟨_, _, _, _, dinv_topGo h hp hq⟩
  | trigGo hp hq => exact ⟨_, _, _, _, dinv_trigGo h hp hq⟩
  | trigWait hp hq => exact ⟨_, _, _, _, dinv_trigWait h hp hq⟩
  | popWait hp hq => exact ⟨_, _, _, _, dinv_popWait h hp hq⟩
  | popBreak hp hq => exact ⟨_, _, _, _, dinv_popBreak h hp hq⟩
  | popTake hp _ hq => exact ⟨_, _, _, _, dinv_popTake h hp hq⟩
  | handleOk hp => exact ⟨_, _, _, _, dinv_handle h hp (.inl ⟨rfl, rfl⟩)⟩
  | handleFail hp => exact ⟨_, _, _, _, dinv_handle h hp (.inr ⟨rfl, rfl⟩)⟩
  | failed hp => exact ⟨_, _, _, _, dinv_failed h hp⟩
  | finArrive hp =>
    obtain ⟨a, g, hn⟩ := dinv_finArrive h hp
    exact ⟨_, _, _, _, hn⟩
  | recheck hw => exact ⟨_, _, _, _, dinv_recheck h hw⟩
  | finOut hp hw => exact ⟨_, _, _, _, dinv_finOut h hp hw⟩
  | resetQuit hp hq => exact ⟨_, _, _, _, dinv_resetQuit h hp hq⟩
  | reset hp hq => exact ⟨_, _, _, _, dinv_reset h hp hq⟩
  | callback hp => exact ⟨_, _, _, _, dinv_callback h hp⟩
  | callbackDone hp => exact ⟨_, _, _, _, dinv_callbackDone h hp⟩

end steps

/-- The invariant holds in all executions. -/
theorem dreach_inv {s : DS N} (h : DReach s) : DInvE s := by
  induction h with
  | init => exact ⟨_, _, _, _, dinv_init⟩
  | work _ hs ih =>
    obtain ⟨arr, G, base, run, hi⟩ := ih
    exact dinv_work hi hs
  | user _ hs ih =>
    obtain ⟨arr, G, base, run, hi⟩ := ih
    cases hs with
    | start hq hm => exact ⟨_, _, _, _, dinv_start hi hq hm⟩
    | pushErr hq hm he => exact ⟨_, _, _, _, dinv_pushErr hi hq hm he⟩
    | pushNone hq hm he hn => exact ⟨_, _, _, _, dinv_push hi hq hm (.inr hn)⟩
    | pushWake hq hm he hn => exact ⟨_, _, _, _, dinv_pushWake hi hq hm hn⟩
    | finalize hq hm => exact ⟨_, _, _, _, dinv_finalize hi hq hm⟩
    | destroy hq => exact ⟨_, _, _, _, dinv_destroy hi hq⟩
  | spurious _ hs ih =>
    obtain ⟨arr, G, base, run, hi⟩ := ih
    cases hs with
    | cvT hp => exact ⟨_, _, _, _, dinv_spuriousT hi hp⟩
    | cvQ hp => exact ⟨_, _, _, _, dinv_spuriousQ hi hp⟩
    | bar hw => exact ⟨_, _, _, _, dinv_spuriousBar hi hw⟩

end Lib842
