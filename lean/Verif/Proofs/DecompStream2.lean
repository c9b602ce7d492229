import Verif.Proofs.DecompStream
import Verif.Proofs.CompStream3
/-!
# Invariants of the decompression stream: blocks, barrier, operations
-/

namespace Lib842
open Spec

variable {N : Nat}

/-! ## Lists of blocks -/

theorem pushes_push (b : Nat) (l : List DEv) : pushes (.push b :: l) = b :: pushes l := rfl
theorem begins_begin (b : Nat) (l : List DEv) : begins (.begin b :: l) = b :: begins l := rfl
theorem ends_ended (b : Nat) (ok : Bool) (l : List DEv) : ends (.ended b ok :: l) = b :: ends l := rfl

theorem count_cons' (a b : Nat) (l : List Nat) : (a :: l).count b = l.count b + if a = b then 1 else 0 := by
  rw [List.count_cons]
  by_cases h : a = b <;> simp [h]

theorem dlead_inj {t u : Fin N} (ht : dlead t = true) (hu : dlead u = true) : t = u := by
  simp only [dlead, decide_eq_true_eq] at ht hu
  exact Fin.ext (by omega)

/-- The invariant of a thread when the queue changes, and does not become longer. -/
theorem DTInv.queue {v : DV} {l : Bool} {a : Nat} {th : DThr} (h : DTInv v l a th) {q : List Nat}
    (hq : v.queue = [] → v.fin = true → q = []) : DTInv { v with queue := q } l a th := by
  unfold DTInv at h ⊢
  split at h
  all_goals try simp only
  all_goals first
    | exact h
    | exact ⟨h.1, h.2.1, h.2.2.1, h.2.2.2.1, hq h.2.2.2.2 h.2.2.2.1⟩
    | (rcases h with ⟨h1, h2, h3, h4⟩ | h
       · exact .inl ⟨h1, h2, fun hr => ⟨(h3 hr).1, hq (h3 hr).2 (h3 hr).1⟩, h4⟩
       · exact .inr h)
    | exact ⟨h.1, h.2.1, h.2.2.1, h.2.2.2.1, h.2.2.2.2.1, hq h.2.2.2.2.2 h.2.2.2.2.1⟩

section steps
variable {s : DS N} {arr : Fin N → Nat} {G base : Nat} {run : Bool} {t : Fin N}

theorem DNInv.noCallback (h : DNInv s arr G base run) (hr : run = true) (u : Fin N) (ok : Bool) :
    (s.thr u).pc ≠ .callback ok := by
  intro hu
  have hT := h.thr u
  simp only [DTInv, hu] at hT
  have : run = false := hT.2.2.2
  rw [hr] at this; cases this

theorem DNInv.active_run (h : DNInv s arr G base run) (ha : (s.thr t).pc.active = true) :
    run = true ∧ (s.thr t).lastTrig = s.trig ∧ arr t = base := by
  have hT := h.thr t
  cases hp : (s.thr t).pc <;> rw [hp] at ha <;> simp [DPc.active] at ha <;> simp only [DTInv, hp] at hT
  all_goals exact ⟨hT.2.1, hT.1, hT.2.2⟩

/-- A thread that works on the queue changes the queue, the error flag, the trace. -/
theorem dinv_active (h : DInv s arr G base run) {q : List Nat} {e : Bool} {l : List DEv} {pc : DPc}
    (ha0 : (s.thr t).pc.active = true) (ha : pc.active = true) (hq : s.queue = [] → q = [])
    (hB : DBInv ({ s with queue := q, error := e, log := l }.setPc t pc))
    (hfin : ∀ c, .finalize c ∈ dcurOp l ↔ .finalize c ∈ dcurOp s.log)
    (hfd : ∀ ok, .finalized ok ∈ dcurOp l ↔ .finalized ok ∈ dcurOp s.log)
    (hst : dstarted l = dstarted s.log)
    (herr : DNInv s arr G base run → ((∃ b, .ended b false ∈ dcurOp l) ↔ e = true ∨
      ∃ u, ((s.setPc t pc).thr u).pc = .failed))
    (heq : DNInv s arr G base run → e = false → .finalize true ∉ dcurOp s.log →
      ∀ b, q.count b + (begins (dcurOp l)).count b = (pushes (dcurOp l)).count b)
    (htr : DNInv s arr G base run → DTraceOk l) :
    DInv ({ s with queue := q, error := e, log := l }.setPc t pc) arr G base run := by
  have hw := h.out (t := t) (by cases hp : (s.thr t).pc <;> simp_all [DPc.active, DPc.inBar])
  have hsl : pc.sleeps = false := by cases pc <;> simp_all [DPc.active, DPc.sleeps]
  have hre : pc.rest = false := by cases pc <;> simp_all [DPc.active, DPc.rest]
  have hcb : pc.cb = false := by cases pc <;> simp_all [DPc.active, DPc.cb]
  show DInv ({ s with queue := q, error := e, log := l }.setThr t { s.thr t with pc := pc }) arr G base run
  refine ⟨hB, fun hq' => ?_, fun hq' => ?_⟩
  · have hN := h.n hq'
    obtain ⟨hr, hlt, hat⟩ := hN.active_run ha0
    obtain ⟨r1, r2, r3⟩ := hN.runT hr
    exact
    { bar := hN.bar
      thr := by
        apply forall_dthr (P := fun u x => DTInv ⟨s.trig, s.finalizing, q, base, run⟩ (dlead u) (arr u) x)
        · cases pc <;> simp [DPc.active] at ha <;> simp only [DTInv] <;> exact ⟨hlt, hr, hat⟩
        · exact fun u _ => (hN.thr u).queue (q := q) fun hx _ => hq hx
      wtOut := by
        apply forall_dthr (P := fun u x => x.pc.inBar = false → s.bar.wt u = .out)
        · exact fun _ => hw
        · exact fun u _ => hN.wtOut u
      runT := fun _ => ⟨hst.trans r1, fun ok hx => r2 ok ((hfd ok).1 hx), r3.trans (exists_congr fun c => (hfin c).symm)⟩
      lead := fun _ => by
        apply forall_dthr (P := fun u x => dlead u → x.pc.rest → x.lastTrig ≠ s.trig)
        · intro _ hx; rw [hre] at hx; cases hx
        · exact fun u _ => hN.lead hr u
      err := fun _ => herr hN
      eq := fun _ h1 h2 => heq hN h1 fun hx => h2 ((hfin true).2 hx)
      runF := fun hx => by rw [hr] at hx; cases hx
      cb := by
        have : ∀ u, ∀ ok, (({ s with queue := q, error := e, log := l } : DS N).setThr t
            { s.thr t with pc := pc } |>.thr u).pc = .callback ok →
            dstarted l = true ∧ DEvOk l (.finalized ok) := by
          apply forall_dthr (P := fun u x => ∀ ok, x.pc = .callback ok → dstarted l = true ∧ DEvOk l (.finalized ok))
          · intro ok hx
            have hx : pc = .callback ok := hx
            rw [hx] at hcb; cases hcb
          · exact fun u _ ok hx => absurd hx (hN.noCallback hr u ok)
        exact this
      noCb := fun hx => by rw [hr] at hx; cases hx
      wake := fun _ => .inl ⟨t, by rw [dthr_self]; exact ha⟩
      tr := htr hN }
  · have hQ := h.q hq'
    have h1 : DQInv ({ s with queue := q, error := e, log := l } : DS N) :=
      { bar := hQ.bar, sleep := hQ.sleep, wtOut := hQ.wtOut }
    exact h1.local (fun _ => hw) hsl

theorem exists_failed {pc : DPc} (h : pc ≠ .failed) (h0 : (s.thr t).pc ≠ .failed) :
    (∃ u, ((s.setPc t pc).thr u).pc = .failed) ↔ ∃ u, (s.thr u).pc = .failed :=
  ⟨exists_dthr_rev (P := fun x => x.pc = .failed) (fun hx => absurd hx h),
   exists_dthr (P := fun x => x.pc = .failed) (fun hx => absurd hx h0)⟩

theorem dinv_popTake {b : Nat} {q : List Nat} (h : DInv s arr G base run) (hpc : (s.thr t).pc = .pop)
    (hp : s.queue = b :: q) :
    DInv ({ s with queue := q, log := .begin b :: s.log }.setPc t (.handle b)) arr G base run := by
  have hco : dcurOp (.begin b :: s.log) = .begin b :: dcurOp s.log := dcurOp_cons rfl _
  have hcnt : ∀ c, s.queue.count c = q.count c + if b = c then 1 else 0 := by
    intro c; rw [hp, count_cons']
  refine dinv_active (s := s) (q := q) (e := s.error) (l := .begin b :: s.log) h (by rw [hpc]; rfl) rfl
    (by rw [hp]; simp) ⟨fun c => ?_, fun c => ?_⟩ (by rw [hco]; simp) (by rw [hco]; simp) (dstarted_cons rfl _) ?_ ?_ ?_
  · show (ends (dcurOp (.begin b :: s.log))).count c + holders (s.setPc t (.handle b)).thr c =
      (begins (dcurOp (.begin b :: s.log))).count c
    rw [hco, begins_begin, count_cons', show ends (.begin b :: dcurOp s.log) = ends (dcurOp s.log) from rfl,
      ← h.b.hist c]
    by_cases hc : b = c
    · subst hc
      have := holders_add (s := s) (t := t) (th := { s.thr t with pc := .handle b }) (b := b)
        (by rw [hpc]; simp) rfl
      have h2 : holders (s.setPc t (.handle b)).thr b = holders s.thr b + 1 := this
      rw [h2, if_pos rfl]; omega
    · have h2 : holders (s.setPc t (.handle b)).thr c = holders s.thr c := by
        apply holders_eq
        apply forall_dthr (P := fun u x => x.pc = .handle c ↔ (s.thr u).pc = .handle c)
        · rw [hpc]; simp [hc]
        · exact fun u _ => Iff.rfl
      rw [h2, if_neg hc]; omega
  · show q.count c + (begins (dcurOp (.begin b :: s.log))).count c ≤ (pushes (dcurOp (.begin b :: s.log))).count c
    rw [hco, begins_begin, count_cons', show pushes (.begin b :: dcurOp s.log) = pushes (dcurOp s.log) from rfl]
    have := h.b.le c
    have := hcnt c
    omega
  · intro hN
    obtain ⟨hr, _⟩ := hN.active_run (t := t) (by rw [hpc]; rfl)
    rw [exists_failed (by simp) (by rw [hpc]; simp), hco, ← hN.err hr]
    simp
  · intro hN h1 h2 c
    obtain ⟨hr, _⟩ := hN.active_run (t := t) (by rw [hpc]; rfl)
    rw [hco, begins_begin, count_cons', show pushes (.begin b :: dcurOp s.log) = pushes (dcurOp s.log) from rfl]
    have := hN.eq hr h1 h2 c
    have := hcnt c
    omega
  · intro hN
    obtain ⟨hr, _⟩ := hN.active_run (t := t) (by rw [hpc]; rfl)
    refine ⟨⟨(hN.runT hr).2.1, ?_⟩, hN.tr⟩
    have := h.b.le b
    have h2 := hcnt b
    rw [if_pos rfl] at h2
    omega

theorem dinv_handle {b : Nat} {ok : Bool} {pc : DPc} (h : DInv s arr G base run) (hpc : (s.thr t).pc = .handle b)
    (hok : (ok = true ∧ pc = .pop) ∨ (ok = false ∧ pc = .failed)) :
    DInv ({ s with log := .ended b ok :: s.log }.setPc t pc) arr G base run := by
  have hco : dcurOp (.ended b ok :: s.log) = .ended b ok :: dcurOp s.log := dcurOp_cons rfl _
  have hpa : pc.active = true := by rcases hok with ⟨_, rfl⟩ | ⟨_, rfl⟩ <;> rfl
  have hph : ∀ c, pc ≠ .handle c := by rcases hok with ⟨_, rfl⟩ | ⟨_, rfl⟩ <;> simp
  have hsub : holders (s.setPc t pc).thr b + 1 = holders s.thr b :=
    holders_sub (s := s) (t := t) (th := { s.thr t with pc := pc }) hpc (hph b)
  refine dinv_active (s := s) (q := s.queue) (e := s.error) (l := .ended b ok :: s.log) h (by rw [hpc]; rfl) hpa
    (fun hx => hx) ⟨fun c => ?_, fun c => ?_⟩ (by rw [hco]; simp) (by rw [hco]; simp) (dstarted_cons rfl _) ?_ ?_ ?_
  · show (ends (dcurOp (.ended b ok :: s.log))).count c + holders (s.setPc t pc).thr c =
      (begins (dcurOp (.ended b ok :: s.log))).count c
    rw [hco, ends_ended, count_cons', show begins (.ended b ok :: dcurOp s.log) = begins (dcurOp s.log) from rfl,
      ← h.b.hist c]
    by_cases hc : b = c
    · subst hc
      rw [if_pos rfl]; omega
    · have h2 : holders (s.setPc t pc).thr c = holders s.thr c := by
        apply holders_eq
        apply forall_dthr (P := fun u x => x.pc = .handle c ↔ (s.thr u).pc = .handle c)
        · rw [hpc]; simp [hc, hph c]
        · exact fun u _ => Iff.rfl
      rw [h2, if_neg hc]; omega
  · show s.queue.count c + (begins (dcurOp (.ended b ok :: s.log))).count c ≤
      (pushes (dcurOp (.ended b ok :: s.log))).count c
    rw [hco]
    exact h.b.le c
  · intro hN
    obtain ⟨hr, _⟩ := hN.active_run (t := t) (by rw [hpc]; rfl)
    rw [hco]
    rcases hok with ⟨rfl, rfl⟩ | ⟨rfl, rfl⟩
    · rw [exists_failed (by simp) (by rw [hpc]; simp), ← hN.err hr]
      simp
    · constructor
      · intro _; exact .inr ⟨t, by rw [DS.setPc, dthr_self]⟩
      · intro _; exact ⟨b, List.mem_cons_self⟩
  · intro hN h1 h2 c
    obtain ⟨hr, _⟩ := hN.active_run (t := t) (by rw [hpc]; rfl)
    rw [hco]
    exact hN.eq hr h1 h2 c
  · intro hN
    obtain ⟨hr, _⟩ := hN.active_run (t := t) (by rw [hpc]; rfl)
    refine ⟨⟨(hN.runT hr).2.1, ?_⟩, hN.tr⟩
    have := h.b.hist b
    omega

theorem dinv_failed (h : DInv s arr G base run) (hpc : (s.thr t).pc = .failed) :
    DInv ({ s with error := true, queue := [] }.setPc t .pop) arr G base run := by
  refine dinv_active (s := s) (q := []) (e := true) (l := s.log) h (by rw [hpc]; rfl) rfl
    (fun _ => rfl) ⟨fun c => ?_, fun c => ?_⟩ (fun _ => Iff.rfl) (fun _ => Iff.rfl) rfl ?_ ?_ ?_
  · have h2 : holders (s.setPc t .pop).thr c = holders s.thr c := by
      apply holders_eq
      apply forall_dthr (P := fun u x => x.pc = .handle c ↔ (s.thr u).pc = .handle c)
      · rw [hpc]; simp
      · exact fun u _ => Iff.rfl
    show (ends (dcurOp s.log)).count c + holders (s.setPc t .pop).thr c = (begins (dcurOp s.log)).count c
    rw [h2]; exact h.b.hist c
  · show ([] : List Nat).count c + (begins (dcurOp s.log)).count c ≤ (pushes (dcurOp s.log)).count c
    have := h.b.le c
    rw [List.count_nil]; omega
  · intro hN
    obtain ⟨hr, _⟩ := hN.active_run (t := t) (by rw [hpc]; rfl)
    rw [hN.err hr]
    constructor
    · intro _; exact .inl rfl
    · intro _; exact .inr ⟨t, hpc⟩
  · intro _ hx; cases hx
  · intro hN; exact hN.tr

/-! ## The barrier -/

theorem dinv_bar (h : DInv s arr G base run) {b : Bar N} (hb : s.quit = false → BarInv b G arr)
    (hq : s.quit = true → BarAwake b) (hwt : ∀ u, s.bar.wt u = .out → b.wt u = .out) :
    DInv { s with bar := b } arr G base run where
  b := ⟨h.b.hist, h.b.le⟩
  n := fun hq => by
    have hN := h.n hq
    exact { bar := hb hq, thr := hN.thr, wtOut := fun u hu => hwt u (hN.wtOut u hu), runT := hN.runT,
            lead := hN.lead, err := hN.err, eq := hN.eq, runF := hN.runF, cb := hN.cb, noCb := hN.noCb,
            wake := hN.wake, tr := hN.tr }
  q := fun hq' => by
    have hQ := h.q hq'
    exact { bar := hq hq', sleep := hQ.sleep, wtOut := fun u hu => hwt u (hQ.wtOut u hu) }

theorem dinv_recheck (h : DInv s arr G base run) {g : BitVec 32} (hw : s.bar.wt t = .awake g) :
    DInv { s with bar := s.bar.recheck t g } arr G base run := by
  apply dinv_bar h
  · exact fun hq => ((h.n hq).bar.recheck hw).1
  · exact fun hq => (h.q hq).bar.recheck.1
  · intro u hu
    have hut : u ≠ t := by rintro rfl; rw [hw] at hu; cases hu
    unfold Bar.recheck
    split <;> (show Function.update s.bar.wt t _ u = .out; rw [Function.update_of_ne hut]; exact hu)

theorem dinv_spuriousBar (h : DInv s arr G base run) {g : BitVec 32} (hw : s.bar.wt t = .asleep g) :
    DInv { s with bar := s.bar.spurious t } arr G base run := by
  apply dinv_bar h
  · exact fun hq => (h.n hq).bar.spurious hw
  · exact fun hq => absurd hw ((h.q hq).bar.2 t g)
  · intro u hu
    have hut : u ≠ t := by rintro rfl; rw [hw] at hu; cases hu
    unfold Bar.spurious
    rw [hw]
    show Function.update s.bar.wt t _ u = .out
    rw [Function.update_of_ne hut]; exact hu

theorem dinv_finArrive (h : DInv s arr G base run) (hpc : (s.thr t).pc = .finArr) :
    ∃ arr' G', DInv ({ s with bar := s.bar.arrive t }.setPc t .finIn) arr' G' base run := by
  have hw := h.out (t := t) (by rw [hpc]; rfl)
  have hB : DBInv ({ s with bar := s.bar.arrive t } : DS N) := ⟨h.b.hist, h.b.le⟩
  have hB' := hB.local (t := t) (th := { s.thr t with pc := .finIn }) (by
    show (s.thr t).pc.holds = false
    rw [hpc]; rfl) rfl
  show ∃ arr' G', DInv ({ s with bar := s.bar.arrive t }.setThr t { s.thr t with pc := .finIn }) arr' G' base run
  have hqq : s.quit = true ∨ s.quit = false := by cases s.quit <;> simp
  rcases hqq with hq | hq
  · refine ⟨arr, G, hB', fun hq' => ?_, fun _ => ?_⟩
    · have : s.quit = false := hq'
      rw [hq] at this; cases this
    · have hQ := h.q hq
      refine ⟨hQ.bar.arrive.1, ?_, ?_⟩
      · apply forall_dthr (P := fun u x => x.pc.sleeps = false)
        · rfl
        · exact fun u _ => hQ.sleep u
      · apply forall_dthr (P := fun u x => x.pc.inBar = false → (s.bar.arrive t).wt u = .out)
        · intro hx; cases hx
        · exact fun u hu hx => arrive_out hu (hQ.wtOut u hx)
  · have hN := h.n hq
    have hT := hN.thr t
    simp only [DTInv, hpc] at hT
    obtain ⟨t1, t2, t3, t4⟩ := hT
    have hr : run = true := t2
    have t3 : arr t = base := t3
    have main : ∀ G', BarInv (s.bar.arrive t) G' (Function.update arr t (arr t + 1)) →
        DInv ({ s with bar := s.bar.arrive t }.setThr t { s.thr t with pc := .finIn })
          (Function.update arr t (arr t + 1)) G' base run := by
      intro G' hbar
      refine ⟨hB', fun _ => ?_, fun hq' => ?_⟩
      · exact
        { bar := hbar
          thr := by
            apply forall_dthr (P := fun u x => DTInv (dview s base run) (dlead u)
              (Function.update arr t (arr t + 1) u) x)
            · rw [Function.update_self]
              simp only [DTInv]
              left
              exact ⟨t1, by show arr t + 1 = base + 1; omega, fun _ => t4, fun _ => t2⟩
            · intro u hu
              rw [Function.update_of_ne hu]; exact hN.thr u
          wtOut := by
            apply forall_dthr (P := fun u x => x.pc.inBar = false → (s.bar.arrive t).wt u = .out)
            · intro hx; cases hx
            · exact fun u hu hx => arrive_out hu (hN.wtOut u hx)
          runT := hN.runT
          lead := fun hr => by
            apply forall_dthr (P := fun u x => dlead u → x.pc.rest → x.lastTrig ≠ s.trig)
            · intro _ hx; cases hx
            · exact fun u _ => hN.lead hr u
          err := fun hr => by
            refine (hN.err hr).trans (or_congr Iff.rfl ⟨fun hx => ?_, fun hx => ?_⟩)
            · exact exists_dthr (s := { s with bar := s.bar.arrive t }) (P := fun x => x.pc = .failed)
                (fun hx => by have hx : (s.thr t).pc = .failed := hx; rw [hpc] at hx; cases hx) hx
            · exact exists_dthr_rev (s := { s with bar := s.bar.arrive t }) (P := fun x => x.pc = .failed)
                (fun hx => by cases hx) hx
          eq := hN.eq
          runF := fun hf => by rw [hr] at hf; cases hf
          cb := by
            have : ∀ u, ∀ ok, (({ s with bar := s.bar.arrive t } : DS N).setThr t { s.thr t with pc := .finIn } |>.thr u).pc
                = .callback ok → dstarted s.log = true ∧ DEvOk s.log (.finalized ok) := by
              apply forall_dthr (P := fun u x => ∀ ok, x.pc = .callback ok →
                dstarted s.log = true ∧ DEvOk s.log (.finalized ok))
              · intro ok hx; cases hx
              · exact fun u _ => hN.cb u
            exact this
          noCb := fun hf => by rw [hr] at hf; cases hf
          wake := fun hx => absurd t4.2 hx
          tr := hN.tr }
      · have : s.quit = true := hq'
        rw [hq] at this; cases this
    rcases hN.bar.arrive hw with ⟨h1, _⟩ | ⟨h1, _, _⟩
    · exact ⟨_, _, main _ h1⟩
    · exact ⟨_, _, main _ h1⟩

end steps

end Lib842
