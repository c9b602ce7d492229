import Verif.Proofs.CompStream3
/-!
# Invariants of the compression stream: the whole system
-/

namespace Lib842
open Spec

variable {N : Nat}

section steps
variable {k : Option Nat} {s : CS N} {arr : Fin N → Nat} {G base next : Nat} {run : Bool} {t : Fin N}

theorem inv_callDone {ok : Bool} (h : CInv k s arr G base next run) (hpc : (s.thr t).pc = .inCall ok) :
    CInv k ({ s with log := .returned (s.thr t).off :: s.log }.setPc t .fetch) arr G base next run := by
  have hw := h.out (t := t) (by rw [hpc]; rfl)
  have hcall := h.b.call t (by rw [hpc]; rfl)
  have hco : curOp (.returned (s.thr t).off :: s.log) = .returned (s.thr t).off :: curOp s.log := curOp_cons rfl _
  have hof : offsets (curOp (.returned (s.thr t).off :: s.log)) = offsets (curOp s.log) := by
    rw [hco]; rfl
  have hos : opSize (.returned (s.thr t).off :: s.log) = opSize s.log := rfl
  have hst : started (.returned (s.thr t).off :: s.log) = started s.log := rfl
  show CInv k ({ s with log := .returned (s.thr t).off :: s.log }.setThr t { s.thr t with pc := .fetch })
    arr G base next run
  refine ⟨⟨?_, ?_, ?_, ?_, ?_, ?_, ?_, h.b.nextLe, h.b.nextMod, h.b.nextCur, h.b.osz, h.b.sz, ?_⟩, fun hq => ?_, fun hq => ?_⟩
  · show (offsets (curOp (.returned (s.thr t).off :: s.log))).Nodup
    rw [hof]; exact h.b.nd
  · show ∀ o ∈ offsets (curOp (.returned (s.thr t).off :: s.log)), _
    rw [hof]; exact h.b.lt
  · apply forall_thr (P := fun _ th => th.holds → th.off < vld (opSize s.log) ∧ th.off % blockSize = 0 ∧
      th.off < next ∧ th.off ∉ offsets (curOp (.returned (s.thr t).off :: s.log)))
    · intro hx; simp [CThr.holds] at hx
    · rw [hof]; exact fun u _ hx => h.b.hold u hx
  · have key : ∀ u, ((({ s with log := .returned (s.thr t).off :: s.log } : CS N).setThr t
        { s.thr t with pc := .fetch }).thr u).holds → u ≠ t := by
      rintro u hx rfl
      rw [thr_self] at hx
      simp [CThr.holds] at hx
    intro u w hu hw he
    have hu' := key u hu
    have hw' := key w hw
    rw [thr_ne _ _ hu'] at hu he
    rw [thr_ne _ _ hw'] at hw he
    exact h.b.inj u w hu hw he
  · intro o h1 h2 h3
    show o ∈ offsets (curOp (.returned (s.thr t).off :: s.log)) ∨ _
    rw [hof]
    rcases h.b.cov o h1 h2 h3 with h4 | ⟨u, h4, h5⟩
    · exact .inl h4
    · right
      have hu : u ≠ t := by
        rintro rfl
        simp [CThr.holds, hpc] at h4
      refine ⟨u, ?_⟩
      rw [thr_ne _ _ hu]
      exact ⟨h4, h5⟩
  · apply forall_thr (P := fun _ th => th.pc.inCallPc →
      th.off ∈ offsets (curOp (.returned (s.thr t).off :: s.log)))
    · intro hx; cases hx
    · rw [hof]; exact fun u _ hx => h.b.call u hx
  · show ∀ o ∈ offsets (curOp (.returned (s.thr t).off :: s.log)),
      .returned o ∈ curOp (.returned (s.thr t).off :: s.log) ∨ _
    rw [hof, hco]
    intro o ho
    rcases h.b.ret o ho with h4 | ⟨u, h4, h5⟩
    · exact .inl (List.mem_cons_of_mem _ h4)
    · by_cases hu : u = t
      · subst hu
        left; rw [h5]; exact List.mem_cons_self
      · right
        refine ⟨u, ?_⟩
        rw [thr_ne _ _ hu]
        exact ⟨h4, h5⟩
  · apply forall_thr (P := fun _ th => th.valid ≤ bigOffset)
    · exact h.b.val t
    · exact fun u _ => h.b.val u
  · have hN := h.n hq
    have hT := hN.thr t
    simp only [TInv, hpc] at hT
    have hr : run = true := hT.2.1
    obtain ⟨r1, r2, r3, r4⟩ := hN.runT hr
    exact
    { bar := hN.bar
      thr := by
        apply forall_thr (P := fun u x => TInv k (viewOf s base run) (isLead u) (arr u) x)
        · simp only [TInv]
          obtain ⟨t1, t2, t3, t4, t5, t6, t7⟩ := hT
          refine ⟨t1, t2, t3, by rw [t7]; exact t5, by rw [t7]; exact t6, ?_⟩
          have t3' : (s.thr t).valid = vld (opSize s.log) := t3
          have := vld_le (opSize s.log)
          show (s.thr t).lastOff ≤ opSize s.log
          omega
        · exact fun u _ => hN.thr u
      wtOut := by
        apply forall_thr (P := fun u x => x.pc.inBar = false → s.bar.wt u = .out)
        · exact fun _ => hw
        · exact fun u _ => hN.wtOut u
      runT := fun _ => by
        show s.size = opSize s.log ∧ started s.log = true ∧
          (∀ ok', .finalized ok' ∉ curOp (.returned (s.thr t).off :: s.log)) ∧
          (s.finalizing = true ↔ ∃ c, .finalize c ∈ curOp (.returned (s.thr t).off :: s.log))
        rw [hco]
        refine ⟨r1, r2, fun ok' => ?_, r4.trans (exists_congr fun c => ?_)⟩
        · simp [r3 ok']
        · simp
      lead := fun hr => by
        apply forall_thr (P := fun u x => isLead u → x.pc.rest → x.lastTrig ≠ s.trig)
        · intro _ hx; cases hx
        · exact fun u _ => hN.lead hr u
      err := fun _ => by
        show s.error = true ↔ (∃ o, .failBlock o ∈ curOp (.returned (s.thr t).off :: s.log)) ∨ _
        rw [hco]
        refine (hN.err hr).trans (or_congr (exists_congr fun o => ?_) ⟨fun hx => ?_, fun hx => ?_⟩)
        · simp
        · exact exists_thr (s := { s with log := .returned (s.thr t).off :: s.log }) (P := fun x => x.pc.delF)
            (fun hx => by have hx : (s.thr t).pc.delF = true := hx; rw [hpc] at hx; cases hx) hx
        · exact exists_thr_rev (s := { s with log := .returned (s.thr t).off :: s.log })
            (P := fun x => x.pc.delF) (fun hx => by cases hx) hx
      stop := fun _ hb => by
        show s.error = true ∨ .finalize true ∈ curOp (.returned (s.thr t).off :: s.log) ∨
          vld (opSize s.log) ≤ next
        rw [hco]
        rcases hN.stop hr hb with h1 | h1 | h1
        · exact .inl h1
        · exact .inr (.inl (List.mem_cons_of_mem _ h1))
        · exact .inr (.inr h1)
      runF := fun hf => by rw [hr] at hf; cases hf
      cb := fun u ok' hx => by
        exfalso
        by_cases hu : u = t
        · subst hu
          rw [thr_self] at hx; cases hx
        · rw [thr_ne _ _ hu] at hx
          exact hN.noCallback hr u ok' hx
      noCb := fun hf => by rw [hr] at hf; cases hf
      tr := ⟨⟨hcall, r3⟩, hN.tr⟩ }
  · have hQ := h.q hq
    have h1 : QInv ({ s with log := .returned (s.thr t).off :: s.log } : CS N) :=
      { bar := hQ.bar, sleep := hQ.sleep, wtOut := hQ.wtOut, cur := hQ.cur }
    exact h1.local (fun _ => hw) rfl

theorem inv_reset (h : CInv k s arr G base next run) (hpc : (s.thr t).pc = .reset) (hq : s.quit = false) :
    CInv k ({ s with size := 0, cur := 0, error := false, finalizing := false }.setPc t
      (.callback (!s.error))) arr G base next false := by
  have hw := h.out (t := t) (by rw [hpc]; rfl)
  have hN := h.n hq
  have hT := hN.thr t
  simp only [TInv, hpc] at hT
  obtain ⟨l1, l2, l3, l4, l5, l6⟩ := hT
  have hr : run = true := l4
  have l3' : arr t = base + epochOf k (opSize s.log) + 1 := l3
  have l5' : s.finalizing = true := l5
  have l6' : vld (opSize s.log) ≤ s.cur := l6
  obtain ⟨r1, r2, r3, r4⟩ := hN.runT hr
  have hG := hN.bar.out_arr hw
  have hall : ∀ u, arr u = base + epochOf k (opSize s.log) + 1 := by
    intro u
    have h1 : arr u ≤ base + epochOf k (opSize s.log) + 1 := (hN.thr u).le
    have h2 := hN.bar.ph u
    omega
  have hend : ∀ u, (s.thr u).lastTrig = s.trig ∧ ((s.thr u).pc.rest = true ∨ (s.thr u).pc = .finIn ∨
      (s.thr u).pc = .reset ∨ (s.thr u).pc.cb = true) := fun u => (hN.thr u).atEnd (hall u)
  have noHold : ∀ u, ¬ (s.thr u).holds ∧ (s.thr u).pc.inCallPc = false ∧ (s.thr u).pc.delF = false := by
    intro u
    rcases (hend u).2 with h1 | h1 | h1 | h1
    · cases hp : (s.thr u).pc <;> simp_all [CThr.holds, CPc.rest, CPc.inCallPc, CPc.delF]
    · simp [CThr.holds, CPc.inCallPc, CPc.delF, h1]
    · simp [CThr.holds, CPc.inCallPc, CPc.delF, h1]
    · cases hp : (s.thr u).pc <;> simp_all [CThr.holds, CPc.cb, CPc.inCallPc, CPc.delF]
  show CInv k ({ s with size := 0, cur := 0, error := false, finalizing := false }.setThr t
      { s.thr t with pc := .callback (!s.error) }) arr G base next false
  refine ⟨?_, fun _ => ?_, fun hq' => ?_⟩
  · apply h.b.congr
    · apply congr_thr (s := { s with size := 0, cur := 0, error := false, finalizing := false })
        (P := fun x y => (x.holds ↔ y.holds) ∧ x.off = y.off ∧ x.pc.inCallPc = y.pc.inCallPc ∧ x.valid = y.valid)
      · exact fun _ => ⟨Iff.rfl, rfl, rfl, rfl⟩
      · simp [CThr.holds, hpc, CPc.inCallPc]
    · rfl
    · rfl
    · exact fun _ hx => hx
    · intro hx; cases hx
    · exact Nat.zero_le _
  · exact
    { bar := hN.bar
      thr := by
        apply forall_thr (P := fun u x => TInv k
          { trig := s.trig, cur := 0, fin := false, osz := opSize s.log, base := base, run := false }
          (isLead u) (arr u) x)
        · simp only [TInv]
          exact ⟨l1, l2, l3', trivial⟩
        · intro u hu
          have hl : isLead u = false := by
            cases hx : isLead u with
            | false => rfl
            | true => exact absurd (isLead_inj hx l1) hu
          have hTu := hN.thr u
          have ha := hall u
          have hlt := (hend u).1
          rcases (hend u).2 with h1 | h1 | h1 | h1
          · cases hp : (s.thr u).pc <;> rw [hp] at h1 <;> simp [CPc.rest] at h1
            · simp only [TInv, hp]; exact .inl ⟨hlt, ha⟩
            · simp only [TInv, hp]; exact .inl ⟨hlt, ha⟩
            · simp only [TInv, hp]; exact ⟨hlt, ha⟩
            · simp only [TInv, hp] at hTu
              rw [hl] at hTu; cases hTu.1
          · simp only [TInv, h1]
            left
            exact ⟨hlt, ha, fun hx => (by cases hx), fun hx => (by rw [hl] at hx; cases hx)⟩
          · simp only [TInv, h1] at hTu
            rw [hl] at hTu; cases hTu.1
          · cases hp : (s.thr u).pc <;> rw [hp] at h1 <;> simp [CPc.cb] at h1
            exact absurd hp (hN.noCallback hr u _)
      wtOut := by
        apply forall_thr (P := fun u x => x.pc.inBar = false → s.bar.wt u = .out)
        · exact fun _ => hw
        · exact fun u _ => hN.wtOut u
      runT := fun hx => by cases hx
      lead := fun hx => by cases hx
      err := fun hx => by cases hx
      stop := fun hx => by cases hx
      runF := fun _ => ⟨rfl, rfl, rfl, rfl, hall, fun _ => r4.1 l5'⟩
      cb := fun u ok hx => by
        by_cases hu : u = t
        · subst hu
          rw [thr_self] at hx
          have hok : ok = !s.error := by
            have : CPc.callback (!s.error) = CPc.callback ok := hx
            injection this with this
            exact this.symm
          subst hok
          refine ⟨r2, r4.1 l5', r3, ?_, ?_, ?_⟩
          · intro o ho
            rcases h.b.ret o ho with h4 | ⟨w, h4, _⟩
            · exact h4
            · rw [(noHold w).2.1] at h4; cases h4
          · have he := hN.err hr
            have : (!s.error) = false ↔ s.error = true := by cases s.error <;> simp
            rw [this, he]
            constructor
            · rintro (h1 | ⟨w, h1⟩)
              · exact h1
              · rw [(noHold w).2.2] at h1; cases h1
            · exact .inl
          · intro hok hc o ho1 ho2
            have hov := (vld_lt ho1).2 ho2
            have hne : s.error = false := by
              cases he : s.error
              · rfl
              · rw [he] at hok; cases hok
            have hnx : vld (opSize s.log) ≤ next := by
              by_cases hb : s.cur < bigOffset
              · rw [h.b.nextCur hr hb]; exact l6'
              · rcases hN.stop hr (Nat.le_of_not_lt hb) with h1 | h1 | h1
                · rw [hne] at h1; cases h1
                · exact absurd h1 hc
                · exact h1
            rcases h.b.cov o hov ho1 (Nat.lt_of_lt_of_le hov hnx) with h4 | ⟨w, h4, _⟩
            · exact h4
            · exact absurd h4 (noHold w).1
        · rw [thr_ne _ _ hu] at hx
          exact absurd hx (hN.noCallback hr u ok)
      noCb := fun _ _ hall => by
        have := hall t
        rw [thr_self] at this; cases this
      tr := hN.tr }
  · have : s.quit = true := hq'
    rw [hq] at this; cases this

theorem inv_callback {ok : Bool} (h : CInv k s arr G base next run) (hpc : (s.thr t).pc = .callback ok) :
    CInv k ({ s with log := .finalized ok :: s.log }.setPc t .inCallback) arr G base next run := by
  have hw := h.out (t := t) (by rw [hpc]; rfl)
  have hco : curOp (.finalized ok :: s.log) = .finalized ok :: curOp s.log := curOp_cons rfl _
  have hof : offsets (curOp (.finalized ok :: s.log)) = offsets (curOp s.log) := by rw [hco]; rfl
  show CInv k ({ s with log := .finalized ok :: s.log }.setThr t { s.thr t with pc := .inCallback })
    arr G base next run
  refine ⟨?_, fun hq => ?_, fun hq => ?_⟩
  · apply h.b.congr
    · apply congr_thr (s := { s with log := .finalized ok :: s.log })
        (P := fun x y => (x.holds ↔ y.holds) ∧ x.off = y.off ∧ x.pc.inCallPc = y.pc.inCallPc ∧ x.valid = y.valid)
      · exact fun _ => ⟨Iff.rfl, rfl, rfl, rfl⟩
      · simp [CThr.holds, hpc, CPc.inCallPc]
    · exact hof
    · rfl
    · intro o hx
      show _ ∈ curOp (.finalized ok :: s.log)
      rw [hco]; exact List.mem_cons_of_mem _ hx
    · exact h.b.nextCur
    · exact Nat.le_refl _
  · have hN := h.n hq
    have hT := hN.thr t
    simp only [TInv, hpc] at hT
    obtain ⟨l1, l2, l3, l4⟩ := hT
    have hr : run = false := l4
    exact
    { bar := hN.bar
      thr := by
        apply forall_thr (P := fun u x => TInv k (viewOf s base run) (isLead u) (arr u) x)
        · simp only [TInv]
          exact ⟨l1, .inl ⟨l2, l3⟩⟩
        · exact fun u _ => hN.thr u
      wtOut := by
        apply forall_thr (P := fun u x => x.pc.inBar = false → s.bar.wt u = .out)
        · exact fun _ => hw
        · exact fun u _ => hN.wtOut u
      runT := fun hx => by rw [hr] at hx; cases hx
      lead := fun hx => by rw [hr] at hx; cases hx
      err := fun hx => by rw [hr] at hx; cases hx
      stop := fun hx => by rw [hr] at hx; cases hx
      runF := fun _ => by
        obtain ⟨f1, f2, f3, f4, f5, f6⟩ := hN.runF hr
        refine ⟨f1, f2, f3, f4, f5, fun hs => ?_⟩
        obtain ⟨c, hc⟩ := f6 hs
        refine ⟨c, ?_⟩
        show _ ∈ curOp (.finalized ok :: s.log)
        rw [hco]; exact List.mem_cons_of_mem _ hc
      cb := fun u ok' hx => by
        exfalso
        by_cases hu : u = t
        · subst hu
          rw [thr_self] at hx; cases hx
        · rw [thr_ne _ _ hu] at hx
          have hx : (s.thr u).pc = .callback ok' := hx
          have hTu := hN.thr u
          simp only [TInv, hx] at hTu
          exact hu (isLead_inj hTu.1 l1)
      noCb := fun _ _ _ => ⟨ok, by
        show _ ∈ curOp (.finalized ok :: s.log)
        rw [hco]; exact List.mem_cons_self⟩
      tr := ⟨(hN.cb t ok hpc).2, hN.tr⟩ }
  · have hQ := h.q hq
    have h1 : QInv ({ s with log := .finalized ok :: s.log } : CS N) :=
      { bar := hQ.bar, sleep := hQ.sleep, wtOut := hQ.wtOut, cur := hQ.cur }
    exact h1.local (fun _ => hw) rfl

theorem inv_start {size : Nat} (h : CInv k s arr G base next run) (hq : s.quit = false) (hm : mayStart s.log)
    (hs : size < bigOffset) :
    CInv k { s with size := size, trig := s.trig + 1, thr := fun t => (s.thr t).wake, log := .start size :: s.log }
      arr G (base + epochOf k (opSize s.log) + 1) 0 true := by
  have hN := h.n hq
  have hr : run = false := by
    cases hr : run with
    | false => rfl
    | true =>
      obtain ⟨_, r2, r3, _⟩ := hN.runT hr
      rcases hm with h1 | ⟨ok, h1⟩
      · rw [r2] at h1; cases h1
      · exact absurd h1 (r3 ok)
  obtain ⟨f1, f2, f3, f4, f5, f6⟩ := hN.runF hr
  have noCb : ∀ u ok, (s.thr u).pc ≠ .callback ok := by
    intro u ok hu
    obtain ⟨c1, _, c3, _⟩ := hN.cb u ok hu
    rcases hm with h1 | ⟨ok', h1⟩
    · rw [c1] at h1; cases h1
    · exact c3 ok' h1
  have pcs : ∀ u, (s.thr u).lastTrig = s.trig ∧ ((s.thr u).pc = .top ∨ (s.thr u).pc = .trig ∨
      (s.thr u).pc = .trigSleep ∨ (isLead u = true ∧ (s.thr u).pc = .inCallback) ∨
      (isLead u = false ∧ (s.thr u).pc = .finIn)) := by
    intro u
    have hTu := hN.thr u
    obtain ⟨e1, e2⟩ := hTu.atEnd (f5 u)
    refine ⟨e1, ?_⟩
    rcases e2 with h1 | h1 | h1 | h1
    · cases hp : (s.thr u).pc <;> rw [hp] at h1 <;> simp [CPc.rest] at h1
      · simp
      · simp
      · simp
      · simp only [TInv, hp] at hTu
        simp [hTu.1]
    · simp only [TInv, h1] at hTu
      right; right; right; right
      refine ⟨?_, h1⟩
      rcases hTu with hTu | hTu
      · cases hl : isLead u with
        | false => rfl
        | true =>
          have : run = true := hTu.2.2.2 hl
          rw [hr] at this; cases this
      · exact hTu.2.2
    · simp only [TInv, h1] at hTu
      have : run = true := hTu.2.2.2.1
      rw [hr] at this; cases this
    · cases hp : (s.thr u).pc <;> rw [hp] at h1 <;> simp [CPc.cb] at h1
      exact absurd hp (noCb u _)
  have noHold : ∀ u, ¬ (s.thr u).wake.holds ∧ (s.thr u).wake.pc.inCallPc = false ∧
      (s.thr u).wake.pc.delF = false ∧ (s.thr u).wake.pc.cb = false := by
    intro u
    rw [(wake_holds _).1, (wake_holds _).2.2.1, (wake_inBar _).2.1, (wake_inBar _).2.2.1]
    rcases (pcs u).2 with h1 | h1 | h1 | ⟨_, h1⟩ | ⟨_, h1⟩ <;>
      simp [CThr.holds, CPc.inCallPc, CPc.delF, CPc.cb, h1]
  have hco : curOp (.start size :: s.log) = [] := curOp_start _ _
  have hof : offsets (curOp (.start size :: s.log)) = [] := by rw [hco]; rfl
  refine ⟨⟨?_, ?_, ?_, ?_, ?_, ?_, ?_, Nat.zero_le _, rfl, fun _ _ => f2.symm, hs, Nat.le_refl _, ?_⟩, fun _ => ?_, fun hq' => ?_⟩
  · show (offsets (curOp (.start size :: s.log))).Nodup
    rw [hof]; exact List.nodup_nil
  · show ∀ o ∈ offsets (curOp (.start size :: s.log)), _
    rw [hof]; intro o ho; cases ho
  · exact fun u hu => absurd hu (noHold u).1
  · exact fun u _ hu => absurd hu (noHold u).1
  · exact fun o _ _ ho => absurd ho (Nat.not_lt_zero _)
  · intro u hu
    have hu : (s.thr u).wake.pc.inCallPc = true := hu
    rw [(noHold u).2.1] at hu; cases hu
  · show ∀ o ∈ offsets (curOp (.start size :: s.log)), _
    rw [hof]; intro o ho; cases ho
  · intro u
    show (s.thr u).wake.valid ≤ _
    rw [(wake_holds _).2.2.2]; exact h.b.val u
  · exact
    { bar := hN.bar
      thr := fun u => by
        obtain ⟨e1, e2⟩ := pcs u
        have e1' : (s.thr u).lastTrig + 1 = s.trig + 1 := by rw [e1]
        have ha := f5 u
        show TInv k (CV.mk (s.trig + 1) s.cur s.finalizing size (base + epochOf k (opSize s.log) + 1) true) (isLead u) (arr u) (s.thr u).wake
        rcases e2 with h1 | h1 | h1 | ⟨hl, h1⟩ | ⟨hl, h1⟩
        · simp only [CThr.wake, h1, TInv]; exact .inr ⟨e1', ha⟩
        · simp only [CThr.wake, h1, TInv]; exact .inr ⟨e1', ha⟩
        · simp only [CThr.wake, h1, TInv]; exact .inr ⟨e1', ha⟩
        · simp only [CThr.wake, h1, TInv]; exact ⟨hl, .inr ⟨e1', ha⟩⟩
        · simp only [CThr.wake, h1, TInv]; exact .inr ⟨e1', ha, hl⟩
      wtOut := fun u hu => by
        have hu : (s.thr u).wake.pc.inBar = false := hu
        rw [(wake_inBar _).1] at hu
        exact hN.wtOut u hu
      runT := fun _ => by
        show size = size ∧ true = true ∧ (∀ ok, .finalized ok ∉ curOp (.start size :: s.log)) ∧
          (s.finalizing = true ↔ ∃ c, .finalize c ∈ curOp (.start size :: s.log))
        rw [hco, f4]
        simp
      lead := fun _ u _ _ => by
        show (s.thr u).wake.lastTrig ≠ s.trig + 1
        rw [(wake_inBar _).2.2.2.2.1, (pcs u).1]
        exact (succ_ne32 _).symm
      err := fun _ => by
        show s.error = true ↔ (∃ o, .failBlock o ∈ curOp (.start size :: s.log)) ∨
          ∃ u, (s.thr u).wake.pc.delF = true
        rw [hco, f3]
        constructor
        · intro hx; cases hx
        · rintro (⟨_, h1⟩ | ⟨u, h1⟩)
          · cases h1
          · rw [(noHold u).2.2.1] at h1; cases h1
      stop := fun _ hb => by
        have hb : bigOffset ≤ s.cur := hb
        rw [f2] at hb
        exact absurd hb (by decide)
      runF := fun hx => by cases hx
      cb := fun u ok hx => by
        have hx : (s.thr u).wake.pc = .callback ok := hx
        rw [wake_callback] at hx
        exact absurd hx (noCb u ok)
      noCb := fun hx => by cases hx
      tr := ⟨trivial, hN.tr⟩ }
  · have : s.quit = true := hq'
    rw [hq] at this; cases this

theorem TInv.finalize {v : CV} {l : Bool} {a : Nat} {th : CThr} (h : TInv k v l a th) :
    TInv k { v with fin := true } l a th.wake := by
  cases hp : th.pc <;> simp only [TInv, hp] at h <;> simp only [CThr.wake, hp, TInv]
  all_goals first
    | exact h
    | exact .inl h
    | exact ⟨h.1, h.2.1, h.2.2.1, h.2.2.2.1⟩
    | exact ⟨h.1, h.2.1, h.2.2.1, h.2.2.2.1, rfl⟩
    | exact ⟨h.1, h.2.1, h.2.2.1, h.2.2.2.1, trivial⟩
    | (rcases h with h | h
       · exact .inl ⟨h.1, h.2.1, fun hr => ⟨trivial, (h.2.2.1 hr).2⟩, h.2.2.2⟩
       · exact .inr h)
    | exact ⟨h.1, h.2.1, h.2.2.1, h.2.2.2.1, trivial, h.2.2.2.2.2⟩

theorem inv_finalize {cancel : Bool} (h : CInv k s arr G base next run) (hq : s.quit = false)
    (hm : mayFinalize s.log) :
    CInv k { s with
        finalizing := true, cur := if cancel then bigOffset else s.cur, thr := fun t => (s.thr t).wake
        log := .finalize cancel :: s.log } arr G base next run := by
  have hN := h.n hq
  have hr : run = true := by
    cases hr : run with
    | true => rfl
    | false =>
      obtain ⟨c, hc⟩ := (hN.runF hr).2.2.2.2.2 hm.1
      exact absurd hc (hm.2 c)
  obtain ⟨r1, r2, r3, r4⟩ := hN.runT hr
  have hco : curOp (.finalize cancel :: s.log) = .finalize cancel :: curOp s.log := curOp_cons rfl _
  have hof : offsets (curOp (.finalize cancel :: s.log)) = offsets (curOp s.log) := by rw [hco]; rfl
  refine ⟨?_, fun _ => ?_, fun hq' => ?_⟩
  · apply h.b.congr
    · exact fun u => wake_holds _
    · exact hof
    · rfl
    · intro o hx
      show _ ∈ curOp (.finalize cancel :: s.log)
      rw [hco]; exact List.mem_cons_of_mem _ hx
    · intro _ hx
      cases cancel with
      | true => exact absurd hx (Nat.lt_irrefl _)
      | false => exact h.b.nextCur hr hx
    · exact Nat.le_refl _
  · exact
    { bar := hN.bar
      thr := fun u => by
        have h1 := ((hN.thr u).mono h.b.osz (c := if cancel then bigOffset else s.cur)
          (by cases cancel
              · exact .inl (Nat.le_refl _)
              · exact .inr (Nat.le_refl _)) (h.b.val u)).finalize
        exact h1
      wtOut := fun u hu => by
        have hu : (s.thr u).wake.pc.inBar = false := hu
        rw [(wake_inBar _).1] at hu
        exact hN.wtOut u hu
      runT := fun _ => by
        show s.size = opSize s.log ∧ started s.log = true ∧
          (∀ ok, .finalized ok ∉ curOp (.finalize cancel :: s.log)) ∧
          (true = true ↔ ∃ c, .finalize c ∈ curOp (.finalize cancel :: s.log))
        rw [hco]
        refine ⟨r1, r2, fun ok => ?_, fun _ => ⟨cancel, List.mem_cons_self⟩, fun _ => rfl⟩
        simp [r3 ok]
      lead := fun hr u hl hx => by
        have hx : (s.thr u).wake.pc.rest = true := hx
        show (s.thr u).wake.lastTrig ≠ s.trig
        rw [(wake_inBar _).2.2.2.1] at hx
        rw [(wake_inBar _).2.2.2.2.1]
        exact hN.lead hr u hl hx
      err := fun _ => by
        show s.error = true ↔ (∃ o, .failBlock o ∈ curOp (.finalize cancel :: s.log)) ∨
          ∃ u, (s.thr u).wake.pc.delF = true
        rw [hco]
        refine (hN.err hr).trans (or_congr (exists_congr fun o => ?_) (exists_congr fun u => ?_))
        · simp
        · rw [(wake_inBar _).2.1]
      stop := fun _ hb => by
        show s.error = true ∨ .finalize true ∈ curOp (.finalize cancel :: s.log) ∨ vld (opSize s.log) ≤ next
        rw [hco]
        cases cancel with
        | true => exact .inr (.inl List.mem_cons_self)
        | false =>
          rcases hN.stop hr hb with h1 | h1 | h1
          · exact .inl h1
          · exact .inr (.inl (List.mem_cons_of_mem _ h1))
          · exact .inr (.inr h1)
      runF := fun hf => by rw [hr] at hf; cases hf
      cb := fun u ok hx => by
        have hx : (s.thr u).wake.pc = .callback ok := hx
        rw [wake_callback] at hx
        exact absurd hx (hN.noCallback hr u ok)
      noCb := fun hf => by rw [hr] at hf; cases hf
      tr := ⟨trivial, hN.tr⟩ }
  · have : s.quit = true := hq'
    rw [hq] at this; cases this

theorem inv_destroy (h : CInv k s arr G base next run) (hq : s.quit = false) :
    CInv k { s with
        quit := true, cur := bigOffset, thr := fun t => (s.thr t).wake, bar := s.bar.interrupt
        log := .destroy :: s.log } arr G base next run := by
  have hN := h.n hq
  have hco : curOp (.destroy :: s.log) = .destroy :: curOp s.log := curOp_cons rfl _
  have hof : offsets (curOp (.destroy :: s.log)) = offsets (curOp s.log) := by rw [hco]; rfl
  refine ⟨?_, fun hq' => ?_, fun _ => ?_⟩
  · apply h.b.congr
    · exact fun u => wake_holds _
    · exact hof
    · rfl
    · intro o hx
      show _ ∈ curOp (.destroy :: s.log)
      rw [hco]; exact List.mem_cons_of_mem _ hx
    · intro _ hx
      exact absurd hx (Nat.lt_irrefl _)
    · exact Nat.le_refl _
  · cases hq'
  · refine ⟨barAwake_interrupt, fun u => (wake_inBar _).2.2.2.2.2, Nat.le_refl _, fun u hu => ?_⟩
    have hu : (s.thr u).wake.pc.inBar = false := hu
    rw [(wake_inBar _).1] at hu
    show (s.bar.wt u).wake = .out
    rw [hN.wtOut u hu]; rfl

theorem inv_init : CInv k (CS.init N) (fun _ => 2 ^ 32) (2 ^ 32) (2 ^ 32 - 1) 0 false := by
  have he : epochOf k (opSize ([] : List Ev)) = 0 := epochOf_zero k
  refine ⟨⟨?_, ?_, ?_, ?_, ?_, ?_, ?_, Nat.zero_le _, rfl, ?_, ?_, Nat.le_refl _, ?_⟩, fun _ => ?_, fun hq => ?_⟩
  · exact List.nodup_nil
  · intro o ho; cases ho
  · intro u hu; simp [CThr.holds, CS.init] at hu
  · intro u w hu; simp [CThr.holds, CS.init] at hu
  · intro o _ _ ho; exact absurd ho (Nat.not_lt_zero _)
  · intro u hu; cases hu
  · intro o ho; cases ho
  · intro hx; cases hx
  · show 0 < bigOffset
    decide
  · intro u
    exact Nat.zero_le _
  · exact
    { bar :=
        { intr := rfl
          gen := by rw [show Bar.gen (CS.init N).bar = 0 from rfl]; decide
          ph := fun _ => .inl rfl
          cnt := by simp [CS.init, Bar.init]
          lt := fun h => h
          new := fun _ h => by simp at h
          old := fun _ _ => .inl rfl }
      thr := fun u => by
        show TInv k { trig := 0, cur := 0, fin := false, osz := 0, base := 2 ^ 32 - 1, run := false } (isLead u)
          (2 ^ 32) { pc := .top, lastTrig := 0, lastOff := 0, off := 0, valid := 0 }
        simp only [TInv]
        left
        rw [epochOf_zero]
        exact ⟨trivial, by decide⟩
      wtOut := fun _ _ => rfl
      runT := fun hx => by cases hx
      lead := fun hx => by cases hx
      err := fun hx => by cases hx
      stop := fun hx => by cases hx
      runF := fun _ => ⟨rfl, rfl, rfl, rfl, fun u => by
        show 2 ^ 32 = 2 ^ 32 - 1 + epochOf k (opSize []) + 1
        rw [he], fun hx => by cases hx⟩
      cb := fun u ok hx => by cases hx
      noCb := fun _ hx => by cases hx
      tr := trivial }
  · cases hq

theorem inv_work (hk : EpochSetting k) (h : CInv k s arr G base next run) {s' : CS N} (hs : CWork k t s s') :
    CInvE k s' := by
  cases hs with
  | topQuit hp hq => exact ⟨_, _, _, _, _, inv_topQuit h hp hq⟩
  | topGo hp hq => exact ⟨_, _, _, _, _, inv_topGo h hp hq⟩
  | trigGo hp hq => exact ⟨_, _, _, _, _, inv_trigGo h hp hq⟩
  | trigWait hp hq => exact ⟨_, _, _, _, _, inv_trigWait h hp hq⟩
  | enter hp => exact ⟨_, _, _, _, _, inv_enter h hp⟩
  | fetch hp =>
    obtain ⟨n, hn⟩ := inv_fetch h hp
    exact ⟨_, _, _, _, _, hn⟩
  | epochArrive hp =>
    obtain ⟨a, g, hn⟩ := inv_epochArrive h hp
    exact ⟨_, _, _, _, _, hn⟩
  | epochOut hp hw => exact ⟨_, _, _, _, _, inv_epochOut h hp hw⟩
  | recheck hw => exact ⟨_, _, _, _, _, inv_recheck h hw⟩
  | epochEnd hp => exact ⟨_, _, _, _, _, inv_epochEnd hk h hp⟩
  | handleOk hp => exact ⟨_, _, _, _, _, (inv_handle h hp).1⟩
  | handleFail hp => exact ⟨_, _, _, _, _, (inv_handle h hp).2⟩
  | failed hp => exact ⟨_, _, _, _, _, inv_failed h hp⟩
  | deliver hp => exact ⟨_, _, _, _, _, inv_deliver h hp⟩
  | callDone hp => exact ⟨_, _, _, _, _, inv_callDone h hp⟩
  | finGo hp hq => exact ⟨_, _, _, _, _, inv_finGo h hp hq⟩
  | finWait hp hq => exact ⟨_, _, _, _, _, inv_finWait h hp hq⟩
  | finArrive hp =>
    obtain ⟨a, g, hn⟩ := inv_finArrive h hp
    exact ⟨_, _, _, _, _, hn⟩
  | finOut hp hw => exact ⟨_, _, _, _, _, inv_finOut h hp hw⟩
  | resetQuit hp hq => exact ⟨_, _, _, _, _, inv_resetQuit h hp hq⟩
  | reset hp hq => exact ⟨_, _, _, _, _, inv_reset h hp hq⟩
  | callback hp => exact ⟨_, _, _, _, _, inv_callback h hp⟩
  | callbackDone hp => exact ⟨_, _, _, _, _, inv_callbackDone h hp⟩

end steps

/-- The invariant holds in all executions. -/
theorem creach_inv {k : Option Nat} (hk : EpochSetting k) {s : CS N} (h : CReach k s) : CInvE k s := by
  induction h with
  | init => exact ⟨_, _, _, _, _, inv_init⟩
  | work _ hs ih =>
    obtain ⟨arr, G, base, next, run, hi⟩ := ih
    exact inv_work hk hi hs
  | user _ hs ih =>
    obtain ⟨arr, G, base, next, run, hi⟩ := ih
    cases hs with
    | start hq hm hs => exact ⟨_, _, _, _, _, inv_start hi hq hm hs⟩
    | finalize hq hm => exact ⟨_, _, _, _, _, inv_finalize hi hq hm⟩
    | destroy hq => exact ⟨_, _, _, _, _, inv_destroy hi hq⟩
  | spurious _ hs ih =>
    obtain ⟨arr, G, base, next, run, hi⟩ := ih
    cases hs with
    | cv hp => exact ⟨_, _, _, _, _, inv_spuriousCv hi hp⟩
    | bar hw => exact ⟨_, _, _, _, _, inv_spuriousBar hi hw⟩

end Lib842
