import Verif.Proofs.BarrierFine
/-!
# Every state of the barrier, one access at a time, stands for a state of the barrier with atomic critical sections

`FBar.abs b`: the critical section that a thread is in is brought to its end.  So taking the mutex is the step of `Model/Sync`, and what follows under
the mutex changes nothing.
-/

namespace Lib842
variable {N M : Nat}

/-- The fields as they are -/
def FBar.base (b : FBar N M) : Bar N := { count := b.count, gen := b.gen, intr := b.intr, wt := fun u => (b.pc u).co }

/-- The fields when thread `t`, which is at this place, has finished -/
def Bar.finish (c : Bar N) (t : Fin N) : BarPc → Bar N
  | .locked => c.arrive t
  | .last => ({ c with count := 0, gen := c.gen + 1 } : Bar N).notifyAll
  | .genned => ({ c with count := 0 } : Bar N).notifyAll
  | .zeroed => c.notifyAll
  | .counted => c.recheck t c.gen
  | .fresh g => c.recheck t g
  | .relocked g => c.recheck t g
  | _ => c

/-- The same for `interrupt` -/
def Bar.ifinish (c : Bar N) : IntPc → Bar N
  | .locked => c.interrupt
  | .set => c.notifyAll
  | _ => c

/-- The fields when the owner of the mutex, if any, has finished -/
def FBar.abs (b : FBar N M) : Bar N :=
  match b.owner with
  | none => b.base
  | some (.inl t) => b.base.finish t (b.pc t)
  | some (.inr i) => b.base.ifinish (b.ipc i)

theorem FBar.abs_none {b : FBar N M} (ho : b.owner = none) : b.abs = b.base := by unfold FBar.abs; rw [ho]
theorem FBar.abs_inl {b : FBar N M} {t : Fin N} {q : BarPc} (ho : b.owner = some (.inl t)) (hp : b.pc t = q) : b.abs = b.base.finish t q := by
  unfold FBar.abs; rw [ho, ← hp]
theorem FBar.abs_inr {b : FBar N M} {i : Fin M} {q : IntPc} (ho : b.owner = some (.inr i)) (hp : b.ipc i = q) : b.abs = b.base.ifinish q := by
  unfold FBar.abs; rw [ho, ← hp]

/-- Who is inside owns the mutex. -/
structure FBar.Own (b : FBar N M) : Prop where
  own : ∀ t, (b.pc t).holds = true ↔ b.owner = some (.inl t)
  iown : ∀ i, (b.ipc i).holds = true ↔ b.owner = some (.inr i)

theorem FBar.Reach.own {b : FBar N M} (h : b.Reach) : b.Own := by
  obtain ⟨a, -, hr⟩ := FBar.rel h
  exact ⟨hr.own, hr.iown⟩

theorem FBar.abs_init : (FBar.init N M).abs = Bar.init N := rfl

theorem Bar.ext' {a b : Bar N} (h1 : a.count = b.count) (h2 : a.gen = b.gen) (h3 : a.intr = b.intr) (h4 : ∀ u, a.wt u = b.wt u) : a = b := by
  cases a; cases b
  simp only at h1 h2 h3 h4
  rw [h1, h2, h3, funext h4]

theorem bwait_wake_wake (w : BWait) : w.wake.wake = w.wake := by cases w <;> rfl

theorem base_update_wt {b : FBar N M} {t : Fin N} {p : BarPc} (u : Fin N) :
    (Function.update b.pc t p u).co = Function.update b.base.wt t p.co u := by
  by_cases hu : u = t
  · subst hu; rw [Function.update_self, Function.update_self]
  · rw [Function.update_of_ne hu, Function.update_of_ne hu]; rfl

theorem co_update_same {b : FBar N M} {t : Fin N} {p : BarPc} (h : (b.pc t).co = p.co) (u : Fin N) : (Function.update b.pc t p u).co = (b.pc u).co := by
  by_cases hu : u = t
  · subst hu; rw [Function.update_self, h]
  · rw [Function.update_of_ne hu]

/-- thread `t` takes the mutex in `arrive_and_wait` -/
theorem FBar.abs_lock {b : FBar N M} {t : Fin N} (h : b.pc t = .out) (ho : b.owner = none) :
    FBar.abs { b with owner := some (.inl t), pc := Function.update b.pc t .locked, arr := Function.update b.arr t (b.arr t + 1) } =
      b.abs.arrive t := by
  rw [FBar.abs_none ho, FBar.abs_inl rfl (Function.update_self _ _ _)]
  show Bar.arrive _ t = _
  congr 1
  exact Bar.ext' rfl rfl rfl fun u => co_update_same (by rw [h]; rfl) u

theorem FBar.abs_intLock {b : FBar N M} {i : Fin M} (ho : b.owner = none) :
    FBar.abs { b with owner := some (.inr i), ipc := Function.update b.ipc i .locked } = b.abs.interrupt := by
  rw [FBar.abs_none ho, FBar.abs_inr rfl (Function.update_self _ _ _)]
  rfl

theorem Bar.finish_wt {c : Bar N} {t u : Fin N} (hu : t ≠ u) (p : BarPc) (hc : c.wt u = .out) : (c.finish t p).wt u = .out := by
  have hn : ∀ d : Bar N, d.wt u = .out → d.notifyAll.wt u = .out := fun d hd => by show (d.wt u).wake = _; rw [hd]; rfl
  have hr : ∀ g, (c.recheck t g).wt u = .out := by
    intro g
    unfold Bar.recheck
    split <;> simp [Function.update_of_ne hu.symm, hc]
  cases p
  case locked =>
    show (c.arrive t).wt u = _
    unfold Bar.arrive
    split
    · exact hn _ hc
    · split
      · exact hc
      · simp [Function.update_of_ne hu.symm, hc]
  case last => exact hn _ hc
  case genned => exact hn _ hc
  case zeroed => exact hn _ hc
  case counted => exact hr _
  case fresh => exact hr _
  case relocked => exact hr _
  all_goals exact hc

theorem FBar.abs_out {b : FBar N M} {t : Fin N} (h : b.pc t = .out) (hown : b.Own) : b.abs.wt t = .out := by
  have hb : b.base.wt t = .out := by show (b.pc t).co = _; rw [h]; rfl
  cases ho : b.owner with
  | none => rw [FBar.abs_none ho]; exact hb
  | some x =>
    cases x with
    | inl u =>
      rw [FBar.abs_inl ho rfl]
      refine Bar.finish_wt ?_ _ hb
      rintro rfl
      have := (hown.own u).2 ho
      rw [h] at this
      cases this
    | inr i =>
      rw [FBar.abs_inr ho rfl]
      cases b.ipc i
      case locked => show ((b.base).wt t).wake = _; rw [hb]; rfl
      case set => show ((b.base).wt t).wake = _; rw [hb]; rfl
      all_goals exact hb

/-- A step that neither begins a call nor is a spurious wakeup is a recheck or nothing at all. -/
theorem FBar.abs_quiet {b b' : FBar N M} (hown : b.Own) (hq : FBar.Quiet b b') :
    b'.abs = b.abs ∨ ∃ t g, b.abs.wt t = .awake g ∧ b'.abs = b.abs.recheck t g := by
  obtain ⟨hs, h1, h2, h3⟩ := hq
  have hin : ∀ {t : Fin N}, (b.pc t).holds = true → b.owner = some (.inl t) := fun h => (hown.own _).1 h
  have hiin : ∀ {i : Fin M}, (b.ipc i).holds = true → b.owner = some (.inr i) := fun h => (hown.iown _).1 h
  cases hs with
  | @lock t ht ho => have := h1 t ht; simp at this
  | @intLock i hi ho => have := h2 i hi; simp at this
  | @spurious t g ht => exact absurd rfl (h3 t g ht)
  | @relock t g ht ho =>
    right
    refine ⟨t, g, by rw [FBar.abs_none ho]; show (b.pc t).co = _; rw [ht]; rfl, ?_⟩
    rw [FBar.abs_none ho, FBar.abs_inl rfl (Function.update_self _ _ _)]
    show Bar.recheck _ t g = _
    congr 1
    exact Bar.ext' rfl rfl rfl fun u => co_update_same (by rw [ht]; rfl) u
  | @countLast t ht hc =>
    left
    have ho := hin (t := t) (by rw [ht]; rfl)
    rw [FBar.abs_inl ho ht]
    refine Eq.trans (FBar.abs_inl ho (Function.update_self _ _ _)) ?_
    show Bar.notifyAll _ = Bar.arrive _ t
    unfold Bar.arrive
    rw [if_pos (by exact hc)]
    exact Bar.ext' rfl rfl rfl fun u => congrArg BWait.wake (co_update_same (by rw [ht]; rfl) u)
  | @countOther t ht hc =>
    left
    have ho := hin (t := t) (by rw [ht]; rfl)
    rw [FBar.abs_inl ho ht]
    refine Eq.trans (FBar.abs_inl ho (Function.update_self _ _ _)) ?_
    show Bar.recheck _ t b.gen = Bar.arrive _ t
    have hco : ∀ u, (Function.update b.pc t .counted u).co = (b.pc u).co := co_update_same (by rw [ht]; rfl)
    have hbt : b.base.wt t = .out := by show (b.pc t).co = _; rw [ht]; rfl
    unfold Bar.arrive Bar.recheck
    rw [if_neg (c := b.base.count + 1 = N) (by exact hc)]
    by_cases hp : b.base.pred b.base.gen = true
    · rw [if_pos (by exact hp), if_pos hp]
      refine Bar.ext' rfl rfl rfl fun u => ?_
      by_cases hu : u = t
      · subst hu; simp only [Function.update_self]; exact hbt.symm
      · simp only [Function.update_of_ne hu]; exact hco u
    · rw [if_neg (by exact hp), if_neg hp]
      refine Bar.ext' rfl rfl rfl fun u => ?_
      by_cases hu : u = t
      · subst hu; simp only [Function.update_self]; rfl
      · simp only [Function.update_of_ne hu]; exact hco u
  | @gen t ht =>
    left
    have ho := hin (t := t) (by rw [ht]; rfl)
    rw [FBar.abs_inl ho ht]
    refine Eq.trans (FBar.abs_inl ho (Function.update_self _ _ _)) ?_
    exact Bar.ext' rfl rfl rfl fun u => congrArg BWait.wake (co_update_same (by rw [ht]; rfl) u)
  | @zero t ht =>
    left
    have ho := hin (t := t) (by rw [ht]; rfl)
    rw [FBar.abs_inl ho ht]
    refine Eq.trans (FBar.abs_inl ho (Function.update_self _ _ _)) ?_
    exact Bar.ext' rfl rfl rfl fun u => congrArg BWait.wake (co_update_same (by rw [ht]; rfl) u)
  | @notify t ht =>
    left
    have ho := hin (t := t) (by rw [ht]; rfl)
    rw [FBar.abs_inl ho ht]
    refine Eq.trans (FBar.abs_inl (q := .leaving) ho (by simp)) ?_
    refine Bar.ext' rfl rfl rfl fun u => ?_
    show (Function.update (fun u => (b.pc u).wake) t .leaving u).co = (b.pc u).co.wake
    by_cases hu : u = t
    · subst hu; rw [Function.update_self, ht]; rfl
    · rw [Function.update_of_ne hu, BarPc.co_wake]
  | @readGen t ht =>
    left
    have ho := hin (t := t) (by rw [ht]; rfl)
    rw [FBar.abs_inl ho ht]
    refine Eq.trans (FBar.abs_inl ho (Function.update_self _ _ _)) ?_
    show Bar.recheck _ t b.gen = Bar.recheck _ t b.gen
    congr 1
    exact Bar.ext' rfl rfl rfl fun u => co_update_same (by rw [ht]; rfl) u
  | @predTrue t g ht hp =>
    left
    have ho := hin (t := t) (by rcases ht with ht | ht <;> rw [ht] <;> rfl)
    have hb : b.abs = b.base.recheck t g := by
      rcases ht with ht | ht <;> rw [FBar.abs_inl ho ht] <;> rfl
    rw [hb]
    refine Eq.trans (FBar.abs_inl ho (Function.update_self _ _ _)) ?_
    unfold Bar.recheck
    rw [if_pos (by exact hp)]
    exact Bar.ext' rfl rfl rfl fun u => base_update_wt u
  | @predFalse t g ht hp =>
    left
    have ho := hin (t := t) (by rcases ht with ht | ht <;> rw [ht] <;> rfl)
    have hb : b.abs = b.base.recheck t g := by
      rcases ht with ht | ht <;> rw [FBar.abs_inl ho ht] <;> rfl
    rw [hb, FBar.abs_none rfl]
    unfold Bar.recheck
    rw [if_neg (by show ¬ b.pred g = true; rw [hp]; simp)]
    exact Bar.ext' rfl rfl rfl fun u => base_update_wt u
  | @unlock t ht =>
    left
    have ho := hin (t := t) (by rw [ht]; rfl)
    rw [FBar.abs_inl ho ht, FBar.abs_none rfl]
    exact Bar.ext' rfl rfl rfl fun u => co_update_same (by rw [ht]; rfl) u
  | @intSet i hi =>
    left
    have ho := hiin (i := i) (by rw [hi]; rfl)
    rw [FBar.abs_inr ho hi]
    refine Eq.trans (FBar.abs_inr ho (Function.update_self _ _ _)) ?_
    rfl
  | @intNotify i hi =>
    left
    have ho := hiin (i := i) (by rw [hi]; rfl)
    rw [FBar.abs_inr ho hi]
    refine Eq.trans (FBar.abs_inr ho (Function.update_self _ _ _)) ?_
    exact Bar.ext' rfl rfl rfl fun u => BarPc.co_wake _
  | @intUnlock i hi =>
    left
    have ho := hiin (i := i) (by rw [hi]; rfl)
    rw [FBar.abs_inr ho hi, FBar.abs_none rfl]
    rfl

/-- A spurious wakeup is one, or nothing if the thread is about to be woken up anyway. -/
theorem FBar.abs_spurious {b : FBar N M} (hown : b.Own) {t : Fin N} {g : BitVec 32} (h : b.pc t = .asleep g) :
    FBar.abs { b with pc := Function.update b.pc t (.woken g) } = b.abs ∨
      b.abs.wt t = .asleep g ∧ FBar.abs { b with pc := Function.update b.pc t (.woken g) } = b.abs.spurious t := by
  have hbase : FBar.base { b with pc := Function.update b.pc t (.woken g) } = b.base.spurious t := by
    refine Bar.ext' rfl rfl rfl fun u => ?_
    show (Function.update b.pc t (.woken g) u).co = Function.update b.base.wt t (b.base.wt t).wake u
    rw [base_update_wt]
    congr 1
    show _ = (b.pc t).co.wake
    rw [h]
    rfl
  have hwt : b.base.wt t = .asleep g := by show (b.pc t).co = _; rw [h]; rfl
  have hnot : ∀ c d : Bar N, c.count = d.count → c.gen = d.gen → c.intr = d.intr → c.wt = Function.update d.wt t (d.wt t).wake →
      c.notifyAll = d.notifyAll := by
    intro c d e1 e2 e3 e4
    refine Bar.ext' e1 e2 e3 fun u => ?_
    show (c.wt u).wake = (d.wt u).wake
    rw [e4]
    by_cases hu : u = t
    · subst hu; rw [Function.update_self, bwait_wake_wake]
    · rw [Function.update_of_ne hu]
  have hrec : ∀ (u : Fin N) g', u ≠ t → (b.base.recheck u g').wt t = .asleep g ∧ (b.base.spurious t).recheck u g' = (b.base.recheck u g').spurious t := by
    intro u g' hu
    have hp : (b.base.spurious t).pred g' = b.base.pred g' := rfl
    unfold Bar.recheck
    rw [hp]
    split
    · refine ⟨by simp [Function.update_of_ne hu.symm, hwt], ?_⟩
      unfold Bar.spurious
      simp only [Function.update_of_ne hu.symm]
      rw [Function.update_comm hu]
    · refine ⟨by simp [Function.update_of_ne hu.symm, hwt], ?_⟩
      unfold Bar.spurious
      simp only [Function.update_of_ne hu.symm]
      rw [Function.update_comm hu]
  have hpc : ∀ u : Fin N, b.owner = some (.inl u) → u ≠ t := by
    rintro u hu rfl
    have := (hown.own u).2 hu
    rw [h] at this
    cases this
  have hcases : b.owner = none ∨ (∃ u, b.owner = some (.inl u)) ∨ ∃ i, b.owner = some (.inr i) := by
    rcases b.owner with _ | u | i
    · exact .inl rfl
    · exact .inr (.inl ⟨u, rfl⟩)
    · exact .inr (.inr ⟨i, rfl⟩)
  rcases hcases with ho | ⟨u, ho⟩ | ⟨i, ho⟩
  · right
    rw [FBar.abs_none ho, FBar.abs_none (b := { b with pc := Function.update b.pc t (.woken g) }) ho]
    exact ⟨hwt, hbase⟩
  · have hu := hpc u ho
    have hsame : Function.update b.pc t (.woken g) u = b.pc u := Function.update_of_ne hu _ _
    rw [FBar.abs_inl (b := b) ho rfl, FBar.abs_inl (b := { b with pc := Function.update b.pc t (.woken g) }) ho hsame, hbase]
    cases hq : b.pc u
    case out => exact .inr ⟨hwt, rfl⟩
    case asleep => exact .inr ⟨hwt, rfl⟩
    case woken => exact .inr ⟨hwt, rfl⟩
    case leaving => exact .inr ⟨hwt, rfl⟩
    case locked =>
      show Bar.arrive _ u = Bar.arrive _ u ∨ (Bar.arrive _ u).wt t = _ ∧ Bar.arrive _ u = (Bar.arrive _ u).spurious t
      unfold Bar.arrive
      by_cases hc : b.base.count + 1 = N
      · rw [if_pos (by exact hc), if_pos hc]
        exact .inl (hnot _ _ rfl rfl rfl rfl)
      · rw [if_neg (by exact hc), if_neg hc]
        right
        by_cases hp : b.base.pred b.base.gen = true
        · rw [if_pos hp, if_pos (by exact hp)]
          exact ⟨hwt, rfl⟩
        · rw [if_neg hp, if_neg (by exact hp)]
          refine ⟨by simp [Function.update_of_ne hu.symm, hwt], ?_⟩
          unfold Bar.spurious
          simp only [Function.update_of_ne hu.symm]
          rw [Function.update_comm hu]
    case last => exact .inl (hnot _ _ rfl rfl rfl rfl)
    case genned => exact .inl (hnot _ _ rfl rfl rfl rfl)
    case zeroed => exact .inl (hnot _ _ rfl rfl rfl rfl)
    case counted => exact .inr (hrec u _ hu)
    case fresh g' => exact .inr (hrec u _ hu)
    case relocked g' => exact .inr (hrec u _ hu)
  · rw [FBar.abs_inr (b := b) ho rfl, FBar.abs_inr (b := { b with pc := Function.update b.pc t (.woken g) }) ho rfl, hbase]
    show Bar.ifinish _ (b.ipc i) = Bar.ifinish _ (b.ipc i) ∨ _
    cases hq : b.ipc i
    case out => exact .inr ⟨hwt, rfl⟩
    case leaving => exact .inr ⟨hwt, rfl⟩
    case locked => exact .inl (hnot _ _ rfl rfl rfl rfl)
    case set => exact .inl (hnot _ _ rfl rfl rfl rfl)

/-- Somebody is inside, so there is a step. -/
theorem FBar.progress {b : FBar N M} (h : b.Reach) (hs : ∀ b', ¬ FBar.Quiet b b') :
    b.owner = none ∧ (∀ t, b.pc t = .out ∨ ∃ g, b.pc t = .asleep g) ∧ ∀ i, b.ipc i = .out := by
  obtain ⟨a, -, hr⟩ := FBar.rel h
  exact FBar.stuck hr hs

end Lib842
