import Verif.Model.DecompStream
import Verif.Proofs.Sync
import Mathlib.Data.List.Basic
/-!
# Invariants of the decompression stream
-/

namespace Lib842
open Spec

/-! ## Traces -/

theorem dcurOp_cons {e : DEv} (h : e.isStart = false) (l : List DEv) : dcurOp (e :: l) = e :: dcurOp l := by
  simp [dcurOp, h]

theorem dcurOp_start (l : List DEv) : dcurOp (.start :: l) = [] := by
  simp [dcurOp, DEv.isStart]

theorem dstarted_cons {e : DEv} (h : e.isStart = false) (l : List DEv) : dstarted (e :: l) = dstarted l := by
  simp [dstarted, h]

/-! ## The invariant -/

variable {N : Nat}

def DPc.inBar : DPc → Bool
  | .finIn => true
  | _ => false

def DPc.sleeps : DPc → Bool
  | .trigSleep | .popSleep => true
  | _ => false

/-- Not in an operation. -/
def DPc.rest : DPc → Bool
  | .top | .trig | .trigSleep | .inCallback => true
  | _ => false

def DPc.cb : DPc → Bool
  | .callback _ => true
  | _ => false

/-- Will look at the queue. -/
def DPc.active : DPc → Bool
  | .pop | .handle _ | .failed => true
  | _ => false

def DPc.holds : DPc → Bool
  | .handle _ => true
  | _ => false

/-- The number of threads that decompress block `b`. -/
def holders (thr : Fin N → DThr) (b : Nat) : Nat := (Finset.univ.filter fun t => (thr t).pc = .handle b).card

structure DBInv (s : DS N) : Prop where
  hist : ∀ b, (ends (dcurOp s.log)).count b + holders s.thr b = (begins (dcurOp s.log)).count b
  le : ∀ b, s.queue.count b + (begins (dcurOp s.log)).count b ≤ (pushes (dcurOp s.log)).count b

/-- What the invariant of a thread refers to. -/
structure DV where
  trig : BitVec 32
  fin : Bool
  queue : List Nat
  base : Nat
  run : Bool

/-- The invariant of a thread that has called the barrier `a` times; the operation began at `base`
calls. -/
def DTInv (v : DV) (lead : Bool) (a : Nat) (th : DThr) : Prop :=
  match th.pc with
  | .top | .trig => (th.lastTrig = v.trig ∧ a = v.base + 1) ∨ (th.lastTrig + 1 = v.trig ∧ a = v.base)
  | .inCallback => lead = true ∧
    ((th.lastTrig = v.trig ∧ a = v.base + 1) ∨ (th.lastTrig + 1 = v.trig ∧ a = v.base))
  | .trigSleep => th.lastTrig = v.trig ∧ a = v.base + 1
  | .pop | .handle _ | .failed => th.lastTrig = v.trig ∧ v.run = true ∧ a = v.base
  | .popSleep => th.lastTrig = v.trig ∧ v.run = true ∧ a = v.base ∧ v.fin = false
  | .finArr => th.lastTrig = v.trig ∧ v.run = true ∧ a = v.base ∧ v.fin = true ∧ v.queue = []
  | .finIn =>
    (th.lastTrig = v.trig ∧ a = v.base + 1 ∧ (v.run = true → v.fin = true ∧ v.queue = []) ∧
      (lead = true → v.run = true)) ∨
    (th.lastTrig + 1 = v.trig ∧ a = v.base ∧ lead = false)
  | .reset => lead = true ∧ th.lastTrig = v.trig ∧ a = v.base + 1 ∧ v.run = true ∧ v.fin = true ∧ v.queue = []
  | .callback _ => lead = true ∧ th.lastTrig = v.trig ∧ a = v.base + 1 ∧ v.run = false
  | .done => False

def dlead (t : Fin N) : Bool := decide (t.val = 0)

def dview (s : DS N) (base : Nat) (run : Bool) : DV := ⟨s.trig, s.finalizing, s.queue, base, run⟩

/-- The invariant while the stream is not being destroyed.  `run`: the operation has not been
reset by the leader. -/
structure DNInv (s : DS N) (arr : Fin N → Nat) (G base : Nat) (run : Bool) : Prop where
  bar : BarInv s.bar G arr
  thr : ∀ t, DTInv (dview s base run) (dlead t) (arr t) (s.thr t)
  wtOut : ∀ t, (s.thr t).pc.inBar = false → s.bar.wt t = .out
  runT : run = true → dstarted s.log = true ∧ (∀ ok, .finalized ok ∉ dcurOp s.log) ∧
    (s.finalizing = true ↔ ∃ c, .finalize c ∈ dcurOp s.log)
  lead : run = true → ∀ t, dlead t → (s.thr t).pc.rest → (s.thr t).lastTrig ≠ s.trig
  err : run = true → ((∃ b, .ended b false ∈ dcurOp s.log) ↔ s.error = true ∨ ∃ t, (s.thr t).pc = .failed)
  eq : run = true → s.error = false → .finalize true ∉ dcurOp s.log →
    ∀ b, s.queue.count b + (begins (dcurOp s.log)).count b = (pushes (dcurOp s.log)).count b
  runF : run = false → s.queue = [] ∧ s.error = false ∧ s.finalizing = false ∧ (∀ t, arr t = base + 1) ∧
    (dstarted s.log = true → ∃ c, .finalize c ∈ dcurOp s.log)
  cb : ∀ t ok, (s.thr t).pc = .callback ok → dstarted s.log = true ∧ DEvOk s.log (.finalized ok)
  noCb : run = false → dstarted s.log = true → (∀ t, (s.thr t).pc.cb = false) → ∃ ok, .finalized ok ∈ dcurOp s.log
  wake : s.queue ≠ [] → (∃ t, (s.thr t).pc.active = true) ∨ ∀ t, (s.thr t).pc ≠ .popSleep
  tr : DTraceOk s.log

/-- The invariant once the stream is being destroyed. -/
structure DQInv (s : DS N) : Prop where
  bar : BarAwake s.bar
  sleep : ∀ t, (s.thr t).pc.sleeps = false
  wtOut : ∀ t, (s.thr t).pc.inBar = false → s.bar.wt t = .out

structure DInv (s : DS N) (arr : Fin N → Nat) (G base : Nat) (run : Bool) : Prop where
  b : DBInv s
  n : s.quit = false → DNInv s arr G base run
  q : s.quit = true → DQInv s

def DInvE (s : DS N) : Prop := ∃ arr G base run, DInv s arr G base run

/-! ## Consequences of the invariant of a thread -/

theorem DTInv.le {v : DV} {l : Bool} {a : Nat} {th : DThr} (h : DTInv v l a th) : a ≤ v.base + 1 := by
  unfold DTInv at h
  split at h
  all_goals first
    | exact h.elim
    | omega

/-- A thread that has made its call. -/
theorem DTInv.atEnd {v : DV} {l : Bool} {a : Nat} {th : DThr} (h : DTInv v l a th) (ha : a = v.base + 1) :
    th.lastTrig = v.trig ∧ (th.pc.rest = true ∨ th.pc = .finIn ∨ th.pc = .reset ∨ th.pc.cb = true) := by
  unfold DTInv at h
  split at h
  all_goals rename_i hpc
  all_goals first
    | (exfalso; omega)
    | (rcases h with h | h
       · exact ⟨h.1, by rw [hpc]; simp [DPc.rest, DPc.cb]⟩
       · omega)
    | (rcases h with ⟨_, h | h⟩
       · exact ⟨h.1, by rw [hpc]; simp [DPc.rest, DPc.cb]⟩
       · omega)
    | (exact ⟨h.1, by rw [hpc]; simp [DPc.rest, DPc.cb]⟩)
    | (exact ⟨h.2.1, by rw [hpc]; simp [DPc.rest, DPc.cb]⟩)

/-! ## Changing one thread -/

theorem dthr_self (s : DS N) (t : Fin N) (th : DThr) : (s.setThr t th).thr t = th := by
  simp [DS.setThr]

theorem dthr_ne (s : DS N) {t u : Fin N} (th : DThr) (h : u ≠ t) : (s.setThr t th).thr u = s.thr u := by
  simp [DS.setThr, h]

theorem forall_dthr {s : DS N} {t : Fin N} {th : DThr} {P : Fin N → DThr → Prop} (ht : P t th)
    (h : ∀ u, u ≠ t → P u (s.thr u)) : ∀ u, P u ((s.setThr t th).thr u) := by
  intro u
  by_cases hu : u = t
  · subst hu; rw [dthr_self]; exact ht
  · rw [dthr_ne s th hu]; exact h u hu

theorem exists_dthr {s : DS N} {t : Fin N} {th : DThr} {P : DThr → Prop}
    (hP : P (s.thr t) → P th) (h : ∃ u, P (s.thr u)) : ∃ u, P ((s.setThr t th).thr u) := by
  obtain ⟨u, hu⟩ := h
  refine ⟨u, ?_⟩
  by_cases hut : u = t
  · subst hut; rw [dthr_self]; exact hP hu
  · rw [dthr_ne s th hut]; exact hu

theorem exists_dthr_rev {s : DS N} {t : Fin N} {th : DThr} {P : DThr → Prop}
    (hP : P th → P (s.thr t)) (h : ∃ u, P ((s.setThr t th).thr u)) : ∃ u, P (s.thr u) := by
  obtain ⟨u, hu⟩ := h
  by_cases hut : u = t
  · subst hut; rw [dthr_self] at hu; exact ⟨u, hP hu⟩
  · rw [dthr_ne s th hut] at hu; exact ⟨u, hu⟩

theorem holders_eq {thr thr' : Fin N → DThr} {b : Nat}
    (h : ∀ t, (thr' t).pc = .handle b ↔ (thr t).pc = .handle b) : holders thr' b = holders thr b := by
  unfold holders
  congr 1
  ext t
  simp [h t]

theorem holders_add {s : DS N} {t : Fin N} {th : DThr} {b : Nat} (h0 : (s.thr t).pc ≠ .handle b)
    (h1 : th.pc = .handle b) : holders (s.setThr t th).thr b = holders s.thr b + 1 := by
  unfold holders
  have : (Finset.univ.filter fun u => ((s.setThr t th).thr u).pc = .handle b) =
      insert t (Finset.univ.filter fun u => (s.thr u).pc = .handle b) := by
    ext u
    simp only [Finset.mem_filter, Finset.mem_univ, true_and, Finset.mem_insert]
    by_cases hu : u = t
    · subst hu; rw [dthr_self]; simp [h1]
    · rw [dthr_ne s th hu]; simp [hu]
  rw [this, Finset.card_insert_of_notMem (by simp [h0])]

theorem holders_sub {s : DS N} {t : Fin N} {th : DThr} {b : Nat} (h0 : (s.thr t).pc = .handle b)
    (h1 : th.pc ≠ .handle b) : holders (s.setThr t th).thr b + 1 = holders s.thr b := by
  unfold holders
  have : (Finset.univ.filter fun u => (s.thr u).pc = .handle b) =
      insert t (Finset.univ.filter fun u => ((s.setThr t th).thr u).pc = .handle b) := by
    ext u
    simp only [Finset.mem_filter, Finset.mem_univ, true_and, Finset.mem_insert]
    by_cases hu : u = t
    · subst hu; simp [h0]
    · rw [dthr_ne s th hu]; simp [hu]
  rw [this, Finset.card_insert_of_notMem (by simp [dthr_self, h1])]

theorem holders_zero {thr : Fin N → DThr} (h : ∀ t, (thr t).pc.holds = false) (b : Nat) : holders thr b = 0 := by
  unfold holders
  rw [Finset.card_eq_zero, Finset.filter_eq_empty_iff]
  intro t _ hc
  have := h t
  rw [hc] at this; cases this

theorem DBInv.local {s : DS N} (h : DBInv s) {t : Fin N} {th : DThr} (h0 : (s.thr t).pc.holds = false)
    (h1 : th.pc.holds = false) : DBInv (s.setThr t th) where
  hist := fun b => by
    have : holders (s.setThr t th).thr b = holders s.thr b := by
      apply holders_eq
      apply forall_dthr (P := fun u x => x.pc = .handle b ↔ (s.thr u).pc = .handle b)
      · constructor
        · intro hx; rw [hx] at h1; cases h1
        · intro hx; rw [hx] at h0; cases h0
      · exact fun u _ => Iff.rfl
    rw [this]; exact h.hist b
  le := h.le

theorem DNInv.local {s : DS N} {arr : Fin N → Nat} {G base : Nat} {run : Bool}
    (h : DNInv s arr G base run) {t : Fin N} {th : DThr}
    (hT : DTInv (dview s base run) (dlead t) (arr t) th)
    (hin : th.pc.inBar = false → s.bar.wt t = .out)
    (hlead : run = true → dlead t → th.pc.rest → th.lastTrig ≠ s.trig)
    (hd : th.pc ≠ .failed) (hd0 : (s.thr t).pc ≠ .failed)
    (hcb : th.pc.cb = false) (hcb0 : (s.thr t).pc.cb = false)
    (hwk : s.queue ≠ [] → th.pc ≠ .popSleep ∧ ((s.thr t).pc.active = true → th.pc.active = true)) :
    DNInv (s.setThr t th) arr G base run where
  bar := h.bar
  thr := by
    apply forall_dthr (P := fun u x => DTInv (dview s base run) (dlead u) (arr u) x)
    · exact hT
    · exact fun u _ => h.thr u
  wtOut := by
    apply forall_dthr (P := fun u x => x.pc.inBar = false → s.bar.wt u = .out)
    · exact hin
    · exact fun u _ => h.wtOut u
  runT := h.runT
  lead := fun hr => by
    apply forall_dthr (P := fun u x => dlead u → x.pc.rest → x.lastTrig ≠ s.trig)
    · exact hlead hr
    · exact fun u _ => h.lead hr u
  err := fun hr => by
    refine (h.err hr).trans (or_congr Iff.rfl ⟨fun hx => ?_, fun hx => ?_⟩)
    · exact exists_dthr (P := fun x => x.pc = .failed) (fun hx => absurd hx hd0) hx
    · exact exists_dthr_rev (P := fun x => x.pc = .failed) (fun hx => absurd hx hd) hx
  eq := h.eq
  runF := h.runF
  cb := by
    have : ∀ u, ∀ ok, ((s.setThr t th).thr u).pc = .callback ok →
        dstarted s.log = true ∧ DEvOk s.log (.finalized ok) := by
      apply forall_dthr (P := fun u x => ∀ ok, x.pc = .callback ok →
        dstarted s.log = true ∧ DEvOk s.log (.finalized ok))
      · intro ok hx; rw [hx] at hcb; cases hcb
      · exact fun u _ => h.cb u
    exact this
  noCb := fun hr hst hall => by
    refine h.noCb hr hst fun u => ?_
    by_cases hu : u = t
    · subst hu; exact hcb0
    · have := hall u
      rwa [dthr_ne s th hu] at this
  wake := fun hq => by
    obtain ⟨w1, w2⟩ := hwk hq
    rcases h.wake hq with hx | hx
    · exact .inl (exists_dthr (P := fun x => x.pc.active = true) w2 hx)
    · right
      apply forall_dthr (P := fun _ x => x.pc ≠ .popSleep)
      · exact w1
      · exact fun u _ => hx u
  tr := h.tr

theorem DQInv.local {s : DS N} (h : DQInv s) {t : Fin N} {th : DThr}
    (hin : th.pc.inBar = false → s.bar.wt t = .out) (hs : th.pc.sleeps = false) :
    DQInv (s.setThr t th) where
  bar := h.bar
  sleep := by
    apply forall_dthr (P := fun u x => x.pc.sleeps = false)
    · exact hs
    · exact fun u _ => h.sleep u
  wtOut := by
    apply forall_dthr (P := fun u x => x.pc.inBar = false → s.bar.wt u = .out)
    · exact hin
    · exact fun u _ => h.wtOut u

section steps
variable {s : DS N} {arr : Fin N → Nat} {G base : Nat} {run : Bool} {t : Fin N}

theorem DInv.local (h : DInv s arr G base run) {th : DThr}
    (hT : s.quit = false → DTInv (dview s base run) (dlead t) (arr t) th)
    (hin : th.pc.inBar = false → s.bar.wt t = .out)
    (hlead : s.quit = false → run = true → dlead t → th.pc.rest → th.lastTrig ≠ s.trig)
    (hwk : s.quit = false → s.queue ≠ [] → th.pc ≠ .popSleep ∧ ((s.thr t).pc.active = true → th.pc.active = true))
    (hs : s.quit = true → th.pc.sleeps = false)
    (h0 : (s.thr t).pc.holds = false) (h1 : th.pc.holds = false)
    (hd : th.pc ≠ .failed) (hd0 : (s.thr t).pc ≠ .failed)
    (hcb : th.pc.cb = false) (hcb0 : (s.thr t).pc.cb = false) :
    DInv (s.setThr t th) arr G base run where
  b := h.b.local h0 h1
  n := fun hq => (h.n hq).local (hT hq) hin (hlead hq) hd hd0 hcb hcb0 (hwk hq)
  q := fun hq => (h.q hq).local hin (hs hq)

theorem DInv.out (h : DInv s arr G base run) (ht : (s.thr t).pc.inBar = false) : s.bar.wt t = .out := by
  cases hq : s.quit with
  | false => exact (h.n hq).wtOut t ht
  | true => exact (h.q hq).wtOut t ht

theorem DNInv.run_of (h : DNInv s arr G base run) (ha : arr t ≠ base + 1) : run = true := by
  cases hr : run with
  | true => rfl
  | false => exact absurd ((h.runF hr).2.2.2.1 t) ha

/-- The side conditions of `DInv.local` that can be read off the program counters. -/
macro "dpc" h:ident : tactic => `(tactic| all_goals first
  | rfl | (rw [$h:ident]; rfl) | (intro hx; rw [$h:ident] at hx; cases hx) | (intro hx; cases hx) | exact fun _ => rfl)

theorem dinv_topQuit (h : DInv s arr G base run) (hpc : (s.thr t).pc = .top) (hq : s.quit = true) :
    DInv (s.setPc t .done) arr G base run := by
  have hw := h.out (t := t) (by rw [hpc]; rfl)
  have hno : ¬ s.quit = false := by rw [hq]; simp
  refine h.local (fun hq' => absurd hq' hno) (fun _ => hw) (fun hq' => absurd hq' hno)
    (fun hq' => absurd hq' hno) ?_ ?_ ?_ ?_ ?_ ?_ ?_
  dpc hpc

theorem dinv_topGo (h : DInv s arr G base run) (hpc : (s.thr t).pc = .top) (hq : s.quit = false) :
    DInv (s.setPc t .trig) arr G base run := by
  have hw := h.out (t := t) (by rw [hpc]; rfl)
  have hT := (h.n hq).thr t
  simp only [DTInv, hpc] at hT
  refine h.local (fun _ => by simp only [DTInv]; exact hT) (fun _ => hw) ?_ ?_ ?_ ?_ ?_ ?_ ?_ ?_ ?_
  · intro _ hr hl _; exact (h.n hq).lead hr t hl (by rw [hpc]; rfl)
  · intro _ _; rw [hpc]; exact ⟨by simp, fun hx => by cases hx⟩
  dpc hpc

theorem dinv_trigGo (h : DInv s arr G base run) (hpc : (s.thr t).pc = .trig)
    (hp : s.trig ≠ (s.thr t).lastTrig ∨ s.quit = true) :
    DInv (s.setThr t { pc := .pop, lastTrig := s.trig }) arr G base run := by
  have hw := h.out (t := t) (by rw [hpc]; rfl)
  refine h.local ?_ (fun _ => hw) ?_ ?_ ?_ ?_ ?_ ?_ ?_ ?_ ?_
  · intro hq
    have hT := (h.n hq).thr t
    simp only [DTInv, hpc] at hT
    have hne := hp.resolve_right (by rw [hq]; simp)
    rcases hT with hT | hT
    · exact absurd hT.1.symm hne
    · simp only [DTInv]
      have ha : arr t = base := hT.2
      exact ⟨rfl, (h.n hq).run_of (t := t) (by omega), ha⟩
  · intro _ _ _ hr; cases hr
  · intro _ _; exact ⟨by simp, fun _ => rfl⟩
  dpc hpc

theorem dinv_trigWait (h : DInv s arr G base run) (hpc : (s.thr t).pc = .trig)
    (hp : s.trig = (s.thr t).lastTrig ∧ s.quit = false) :
    DInv (s.setPc t .trigSleep) arr G base run := by
  have hw := h.out (t := t) (by rw [hpc]; rfl)
  refine h.local ?_ (fun _ => hw) ?_ ?_ ?_ ?_ ?_ ?_ ?_ ?_ ?_
  · intro hq
    have hT := (h.n hq).thr t
    simp only [DTInv, hpc] at hT
    rcases hT with hT | hT
    · exact hT
    · have h1 : (s.thr t).lastTrig + 1 = s.trig := hT.1
      rw [hp.1] at h1
      exact absurd h1 (succ_ne32 _)
  · intro hq hr hl _; exact (h.n hq).lead hr t hl (by rw [hpc]; rfl)
  · intro _ _; rw [hpc]; exact ⟨by simp, fun hx => by cases hx⟩
  · intro hq; rw [hp.2] at hq; cases hq
  dpc hpc

theorem dinv_popWait (h : DInv s arr G base run) (hpc : (s.thr t).pc = .pop)
    (hp : s.queue = [] ∧ s.finalizing = false ∧ s.quit = false) :
    DInv (s.setPc t .popSleep) arr G base run := by
  have hw := h.out (t := t) (by rw [hpc]; rfl)
  refine h.local ?_ (fun _ => hw) ?_ ?_ ?_ ?_ ?_ ?_ ?_ ?_ ?_
  · intro hq
    have hT := (h.n hq).thr t
    simp only [DTInv, hpc] at hT
    simp only [DTInv]
    exact ⟨hT.1, hT.2.1, hT.2.2, hp.2.1⟩
  · intro _ _ _ hr; cases hr
  · intro _ hx; exact absurd hp.1 hx
  · intro hq; rw [hp.2.2] at hq; cases hq
  dpc hpc

theorem dinv_popBreak (h : DInv s arr G base run) (hpc : (s.thr t).pc = .pop)
    (hp : (s.finalizing = true ∧ s.queue = []) ∨ s.quit = true) :
    DInv (s.setPc t .finArr) arr G base run := by
  have hw := h.out (t := t) (by rw [hpc]; rfl)
  refine h.local ?_ (fun _ => hw) ?_ ?_ ?_ ?_ ?_ ?_ ?_ ?_ ?_
  · intro hq
    have hT := (h.n hq).thr t
    simp only [DTInv, hpc] at hT
    simp only [DTInv]
    exact ⟨hT.1, hT.2.1, hT.2.2, hp.resolve_right (by rw [hq]; simp)⟩
  · intro _ _ _ hr; cases hr
  · intro hq hx; exact absurd (hp.resolve_right (by rw [hq]; simp)).2 hx
  dpc hpc

theorem dinv_finOut (h : DInv s arr G base run) (hpc : (s.thr t).pc = .finIn) (hw : s.bar.wt t = .out) :
    DInv (s.setPc t (if t.val = 0 then .reset else .top)) arr G base run := by
  by_cases h0 : t.val = 0
  · rw [if_pos h0]
    refine h.local ?_ (fun _ => hw) ?_ ?_ ?_ ?_ ?_ ?_ ?_ ?_ ?_
    · intro hq
      have hT := (h.n hq).thr t
      simp only [DTInv, hpc] at hT
      simp only [DTInv]
      have hl : dlead t = true := by simp [dlead, h0]
      rcases hT with hT | hT
      · have hr := hT.2.2.2 hl
        exact ⟨hl, hT.1, hT.2.1, hr, hT.2.2.1 hr⟩
      · rw [hl] at hT; cases hT.2.2
    · intro _ _ _ hr; cases hr
    · intro _ _; rw [hpc]; exact ⟨by simp, fun hx => by cases hx⟩
    dpc hpc
  · rw [if_neg h0]
    refine h.local ?_ (fun _ => hw) ?_ ?_ ?_ ?_ ?_ ?_ ?_ ?_ ?_
    · intro hq
      have hT := (h.n hq).thr t
      simp only [DTInv, hpc] at hT
      simp only [DTInv]
      rcases hT with hT | hT
      · exact .inl ⟨hT.1, hT.2.1⟩
      · exact .inr ⟨hT.1, hT.2.1⟩
    · intro _ _ hl; simp [dlead, h0] at hl
    · intro _ _; rw [hpc]; exact ⟨by simp, fun hx => by cases hx⟩
    dpc hpc

theorem dinv_resetQuit (h : DInv s arr G base run) (hpc : (s.thr t).pc = .reset) (hq : s.quit = true) :
    DInv (s.setPc t .top) arr G base run := by
  have hw := h.out (t := t) (by rw [hpc]; rfl)
  have hno : ¬ s.quit = false := by rw [hq]; simp
  refine h.local (fun hq' => absurd hq' hno) (fun _ => hw) (fun hq' => absurd hq' hno)
    (fun hq' => absurd hq' hno) ?_ ?_ ?_ ?_ ?_ ?_ ?_
  dpc hpc

theorem dinv_callbackDone (h : DInv s arr G base run) (hpc : (s.thr t).pc = .inCallback) :
    DInv (s.setPc t .top) arr G base run := by
  have hw := h.out (t := t) (by rw [hpc]; rfl)
  refine h.local ?_ (fun _ => hw) ?_ ?_ ?_ ?_ ?_ ?_ ?_ ?_ ?_
  · intro hq
    have hT := (h.n hq).thr t
    simp only [DTInv, hpc] at hT
    simp only [DTInv]
    exact hT.2
  · intro hq hr hl _; exact (h.n hq).lead hr t hl (by rw [hpc]; rfl)
  · intro _ _; rw [hpc]; exact ⟨by simp, fun hx => by cases hx⟩
  dpc hpc

theorem dinv_spuriousT (h : DInv s arr G base run) (hpc : (s.thr t).pc = .trigSleep) :
    DInv (s.setPc t .trig) arr G base run := by
  have hw := h.out (t := t) (by rw [hpc]; rfl)
  refine h.local ?_ (fun _ => hw) ?_ ?_ ?_ ?_ ?_ ?_ ?_ ?_ ?_
  · intro hq
    have hT := (h.n hq).thr t
    simp only [DTInv, hpc] at hT
    simp only [DTInv]
    exact .inl hT
  · intro hq hr hl _; exact (h.n hq).lead hr t hl (by rw [hpc]; rfl)
  · intro _ _; rw [hpc]; exact ⟨by simp, fun hx => by cases hx⟩
  dpc hpc

theorem dinv_spuriousQ (h : DInv s arr G base run) (hpc : (s.thr t).pc = .popSleep) :
    DInv (s.setPc t .pop) arr G base run := by
  have hw := h.out (t := t) (by rw [hpc]; rfl)
  refine h.local ?_ (fun _ => hw) ?_ ?_ ?_ ?_ ?_ ?_ ?_ ?_ ?_
  · intro hq
    have hT := (h.n hq).thr t
    simp only [DTInv, hpc] at hT
    simp only [DTInv]
    exact ⟨hT.1, hT.2.1, hT.2.2.1⟩
  · intro _ _ _ hr; cases hr
  · intro _ _; exact ⟨by simp, fun _ => rfl⟩
  dpc hpc

end steps

end Lib842
