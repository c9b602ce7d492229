import Verif.Model.CompStream
import Verif.Proofs.Sync
import Mathlib.Data.List.Basic
/-!
# Invariants of the compression stream
-/

namespace Lib842
open Spec

/-! ## Traces -/

theorem curOp_cons {e : Ev} (h : e.isStart = false) (l : List Ev) : curOp (e :: l) = e :: curOp l := by
  simp [curOp, h]

theorem curOp_start (n : Nat) (l : List Ev) : curOp (.start n :: l) = [] := by
  simp [curOp, Ev.isStart]

theorem opSize_cons {e : Ev} (h : e.isStart = false) (l : List Ev) : opSize (e :: l) = opSize l := by
  cases e <;> simp [Ev.isStart] at h <;> rfl

theorem started_cons {e : Ev} (h : e.isStart = false) (l : List Ev) : started (e :: l) = started l := by
  simp [started, h]

/-- `size & ~(BLOCK_SIZE-1)` -/
def vld (n : Nat) : Nat := n - n % blockSize

theorem vld_le (n : Nat) : vld n ≤ n := Nat.sub_le _ _

theorem vld_lt {o n : Nat} (ho : o % blockSize = 0) : o < vld n ↔ o + blockSize ≤ n := by
  unfold vld blockSize at *; omega

theorem epochOf_mono (k : Option Nat) {a b : Nat} (h : a ≤ b) : epochOf k a ≤ epochOf k b := by
  cases k with
  | none => exact Nat.le_refl _
  | some k => exact Nat.div_le_div_right h

/-- The epochs are multiples of the block size. -/
def EpochSetting (k : Option Nat) : Prop := ∀ j, k = some j → 20 ≤ j

theorem epochOf_vld {k : Option Nat} (hk : EpochSetting k) (n : Nat) : epochOf k (vld n) = epochOf k n := by
  cases k with
  | none => rfl
  | some j =>
    have hj := hk j rfl
    simp only [epochOf]
    obtain ⟨i, rfl⟩ : ∃ i, j = 20 + i := ⟨j - 20, by omega⟩
    rw [Nat.pow_add, ← Nat.div_div_eq_div_mul, ← Nat.div_div_eq_div_mul]
    congr 1
    unfold vld blockSize
    omega

theorem epochOf_min {k : Option Nat} (hk : EpochSetting k) {o n : Nat} (h : vld n ≤ o) :
    epochOf k (min o n) = epochOf k n := by
  apply Nat.le_antisymm
  · exact epochOf_mono k (Nat.min_le_right _ _)
  · rw [← epochOf_vld hk n]
    exact epochOf_mono k (Nat.le_min.2 ⟨h, vld_le n⟩)

theorem numEpochs_eq (k : Option Nat) (o n l : Nat) :
    numEpochs k o n l = epochOf k (min o n) - epochOf k l := by
  cases k <;> simp [numEpochs, epochOf]

/-! ## The invariant -/

variable {N : Nat}

/-- The thread has an offset whose block has not been handed to the callback. -/
def CThr.holds (th : CThr) : Prop :=
  match th.pc with
  | .epoch _ | .epochIn _ => th.off < th.valid
  | .handle | .failed | .deliver _ => True
  | _ => False

def CPc.inCallPc : CPc → Bool
  | .inCall _ => true
  | _ => false

def CPc.inBar : CPc → Bool
  | .epochIn _ | .finIn => true
  | _ => false

def CPc.sleeps : CPc → Bool
  | .trigSleep | .finSleep => true
  | _ => false

/-- Not in an operation. -/
def CPc.rest : CPc → Bool
  | .top | .trig | .trigSleep | .inCallback => true
  | _ => false

def CPc.cb : CPc → Bool
  | .callback _ => true
  | _ => false

def CPc.delF : CPc → Bool
  | .deliver false => true
  | _ => false

/-- The blocks.  `next`: blocks below it have been fetched; `run`: the operation has not been
reset by the leader. -/
structure BInv (s : CS N) (next : Nat) (run : Bool) : Prop where
  nd : (offsets (curOp s.log)).Nodup
  lt : ∀ o ∈ offsets (curOp s.log), o < vld (opSize s.log) ∧ o % blockSize = 0 ∧ o < next
  hold : ∀ t, (s.thr t).holds → (s.thr t).off < vld (opSize s.log) ∧ (s.thr t).off % blockSize = 0 ∧
    (s.thr t).off < next ∧ (s.thr t).off ∉ offsets (curOp s.log)
  inj : ∀ t u, (s.thr t).holds → (s.thr u).holds → (s.thr t).off = (s.thr u).off → t = u
  cov : ∀ o, o < vld (opSize s.log) → o % blockSize = 0 → o < next →
    o ∈ offsets (curOp s.log) ∨ ∃ t, (s.thr t).holds ∧ (s.thr t).off = o
  call : ∀ t, (s.thr t).pc.inCallPc → (s.thr t).off ∈ offsets (curOp s.log)
  ret : ∀ o ∈ offsets (curOp s.log), .returned o ∈ curOp s.log ∨
    ∃ t, (s.thr t).pc.inCallPc ∧ (s.thr t).off = o
  nextLe : next ≤ bigOffset
  nextMod : next % blockSize = 0
  nextCur : run = true → s.cur < bigOffset → next = s.cur
  osz : opSize s.log < bigOffset
  sz : s.size ≤ opSize s.log
  val : ∀ t, (s.thr t).valid ≤ bigOffset

/-- What the invariant of a thread refers to. -/
structure CV where
  trig : BitVec 32
  cur : Nat
  fin : Bool
  osz : Nat
  base : Nat
  run : Bool

/-- The invariant of a thread that has called the barrier `a` times; the operation began at `base`
calls. -/
def TInv (k : Option Nat) (v : CV) (lead : Bool) (a : Nat) (th : CThr) : Prop :=
  match th.pc with
  | .top | .trig =>
    (th.lastTrig = v.trig ∧ a = v.base + epochOf k v.osz + 1) ∨ (th.lastTrig + 1 = v.trig ∧ a = v.base)
  | .inCallback => lead = true ∧
    ((th.lastTrig = v.trig ∧ a = v.base + epochOf k v.osz + 1) ∨ (th.lastTrig + 1 = v.trig ∧ a = v.base))
  | .trigSleep => th.lastTrig = v.trig ∧ a = v.base + epochOf k v.osz + 1
  | .enter => th.lastTrig = v.trig ∧ v.run = true ∧ a = v.base
  | .fetch => th.lastTrig = v.trig ∧ v.run = true ∧ th.valid = vld v.osz ∧
    a = v.base + epochOf k th.lastOff ∧ th.lastOff ≤ v.cur ∧ th.lastOff ≤ v.osz
  | .epoch r | .epochIn r => th.lastTrig = v.trig ∧ v.run = true ∧ th.valid = vld v.osz ∧
    a + r = v.base + epochOf k (min th.off v.osz) ∧ min th.off bigOffset ≤ v.cur
  | .handle | .failed | .deliver _ | .inCall _ => th.lastTrig = v.trig ∧ v.run = true ∧
    th.valid = vld v.osz ∧ th.off < th.valid ∧ a = v.base + epochOf k th.off ∧
    th.off ≤ v.cur ∧ th.lastOff = th.off
  | .fin => th.lastTrig = v.trig ∧ v.run = true ∧ a = v.base + epochOf k v.osz ∧ vld v.osz ≤ v.cur
  | .finSleep => th.lastTrig = v.trig ∧ v.run = true ∧ a = v.base + epochOf k v.osz ∧
    vld v.osz ≤ v.cur ∧ v.fin = false
  | .finArr => th.lastTrig = v.trig ∧ v.run = true ∧ a = v.base + epochOf k v.osz ∧
    vld v.osz ≤ v.cur ∧ v.fin = true
  | .finIn =>
    (th.lastTrig = v.trig ∧ a = v.base + epochOf k v.osz + 1 ∧
      (v.run = true → v.fin = true ∧ vld v.osz ≤ v.cur) ∧ (lead = true → v.run = true)) ∨
    (th.lastTrig + 1 = v.trig ∧ a = v.base ∧ lead = false)
  | .reset => lead = true ∧ th.lastTrig = v.trig ∧ a = v.base + epochOf k v.osz + 1 ∧ v.run = true ∧
    v.fin = true ∧ vld v.osz ≤ v.cur
  | .callback _ => lead = true ∧ th.lastTrig = v.trig ∧ a = v.base + epochOf k v.osz + 1 ∧ v.run = false
  | .done => False

def isLead (t : Fin N) : Bool := decide (t.val = 0)

def viewOf (s : CS N) (base : Nat) (run : Bool) : CV :=
  { trig := s.trig, cur := s.cur, fin := s.finalizing, osz := opSize s.log, base := base, run := run }

/-- The invariant while the stream is not being destroyed. -/
structure NInv (k : Option Nat) (s : CS N) (arr : Fin N → Nat) (G base next : Nat) (run : Bool) : Prop where
  bar : BarInv s.bar G arr
  thr : ∀ t, TInv k (viewOf s base run) (isLead t) (arr t) (s.thr t)
  wtOut : ∀ t, (s.thr t).pc.inBar = false → s.bar.wt t = .out
  runT : run = true → s.size = opSize s.log ∧ started s.log = true ∧ (∀ ok, .finalized ok ∉ curOp s.log) ∧
    (s.finalizing = true ↔ ∃ c, .finalize c ∈ curOp s.log)
  lead : run = true → ∀ t, isLead t → (s.thr t).pc.rest → (s.thr t).lastTrig ≠ s.trig
  err : run = true → (s.error = true ↔ (∃ o, .failBlock o ∈ curOp s.log) ∨ ∃ t, (s.thr t).pc.delF)
  stop : run = true → bigOffset ≤ s.cur → s.error = true ∨ .finalize true ∈ curOp s.log ∨
    vld (opSize s.log) ≤ next
  runF : run = false → s.size = 0 ∧ s.cur = 0 ∧ s.error = false ∧ s.finalizing = false ∧
    (∀ t, arr t = base + epochOf k (opSize s.log) + 1) ∧ (started s.log = true → ∃ c, .finalize c ∈ curOp s.log)
  cb : ∀ t ok, (s.thr t).pc = .callback ok → started s.log = true ∧ EvOk k s.log (.finalized ok)
  noCb : run = false → started s.log = true → (∀ t, (s.thr t).pc.cb = false) → ∃ ok, .finalized ok ∈ curOp s.log
  tr : TraceOk k s.log

/-- The invariant once the stream is being destroyed. -/
structure QInv (s : CS N) : Prop where
  bar : BarAwake s.bar
  sleep : ∀ t, (s.thr t).pc.sleeps = false
  cur : bigOffset ≤ s.cur
  wtOut : ∀ t, (s.thr t).pc.inBar = false → s.bar.wt t = .out

structure CInv (k : Option Nat) (s : CS N) (arr : Fin N → Nat) (G base next : Nat) (run : Bool) : Prop where
  b : BInv s next run
  n : s.quit = false → NInv k s arr G base next run
  q : s.quit = true → QInv s

def CInvE (k : Option Nat) (s : CS N) : Prop := ∃ arr G base next run, CInv k s arr G base next run

/-! ## Consequences of the invariant of a thread -/

theorem TInv.le {k : Option Nat} {v : CV} {l : Bool} {a : Nat} {th : CThr} (h : TInv k v l a th) :
    a ≤ v.base + epochOf k v.osz + 1 := by
  have hm := fun {x : Nat} (hx : x ≤ v.osz) => epochOf_mono k hx
  unfold TInv at h
  have hv := vld_le v.osz
  split at h
  all_goals first
    | (rcases h with h | h <;> omega)
    | (have := hm (x := th.lastOff); omega)
    | (have := hm (Nat.min_le_right th.off v.osz); omega)
    | (have := hm (x := th.off); omega)
    | omega

/-- A thread that has made all its calls. -/
theorem TInv.atEnd {k : Option Nat} {v : CV} {l : Bool} {a : Nat} {th : CThr} (h : TInv k v l a th)
    (ha : a = v.base + epochOf k v.osz + 1) :
    th.lastTrig = v.trig ∧ (th.pc.rest = true ∨ th.pc = .finIn ∨ th.pc = .reset ∨ th.pc.cb = true) := by
  have hm := fun {x : Nat} (hx : x ≤ v.osz) => epochOf_mono k hx
  unfold TInv at h
  have hv := vld_le v.osz
  split at h
  all_goals rename_i hpc
  all_goals first
    | (exfalso; omega)
    | (exfalso; have := hm (x := th.lastOff); omega)
    | (exfalso; have := hm (Nat.min_le_right th.off v.osz); omega)
    | (exfalso; have := hm (x := th.off); omega)
    | (rcases h with h | h
       · exact ⟨h.1, by rw [hpc]; simp [CPc.rest, CPc.cb]⟩
       · omega)
    | (rcases h with ⟨_, h | h⟩
       · exact ⟨h.1, by rw [hpc]; simp [CPc.rest, CPc.cb]⟩
       · omega)
    | (exact ⟨h.1, by rw [hpc]; simp [CPc.rest, CPc.cb]⟩)
    | (exact ⟨h.2.1, by rw [hpc]; simp [CPc.rest, CPc.cb]⟩)

/-! ## Steps that change one thread only -/

theorem thr_self (s : CS N) (t : Fin N) (th : CThr) : (s.setThr t th).thr t = th := by
  simp [CS.setThr]

theorem thr_ne (s : CS N) {t u : Fin N} (th : CThr) (h : u ≠ t) : (s.setThr t th).thr u = s.thr u := by
  simp [CS.setThr, h]

/-- A property of all threads after a change of one. -/
theorem forall_thr {s : CS N} {t : Fin N} {th : CThr} {P : Fin N → CThr → Prop} (ht : P t th)
    (h : ∀ u, u ≠ t → P u (s.thr u)) : ∀ u, P u ((s.setThr t th).thr u) := by
  intro u
  by_cases hu : u = t
  · subst hu; rw [thr_self]; exact ht
  · rw [thr_ne s th hu]; exact h u hu

theorem exists_thr {s : CS N} {t : Fin N} {th : CThr} {P : CThr → Prop}
    (hP : P (s.thr t) → P th) (h : ∃ u, P (s.thr u)) : ∃ u, P ((s.setThr t th).thr u) := by
  obtain ⟨u, hu⟩ := h
  refine ⟨u, ?_⟩
  by_cases hut : u = t
  · subst hut; rw [thr_self]; exact hP hu
  · rw [thr_ne s th hut]; exact hu

theorem exists_thr_rev {s : CS N} {t : Fin N} {th : CThr} {P : CThr → Prop}
    (hP : P th → P (s.thr t)) (h : ∃ u, P ((s.setThr t th).thr u)) : ∃ u, P (s.thr u) := by
  obtain ⟨u, hu⟩ := h
  by_cases hut : u = t
  · subst hut; rw [thr_self] at hu; exact ⟨u, hP hu⟩
  · rw [thr_ne s th hut] at hu; exact ⟨u, hu⟩

/-- The blocks under a change of one thread. -/
theorem BInv.local {s : CS N} {next : Nat} {run : Bool} (h : BInv s next run) {t : Fin N} {th : CThr}
    (hh : th.holds ↔ (s.thr t).holds) (hoff : th.holds → th.off = (s.thr t).off)
    (hc : th.pc.inCallPc = false) (hc0 : (s.thr t).pc.inCallPc = false) (hval : th.valid ≤ bigOffset) :
    BInv (s.setThr t th) next run where
  nd := h.nd
  lt := h.lt
  hold := by
    apply forall_thr (P := fun _ th => th.holds → th.off < vld (opSize s.log) ∧ th.off % blockSize = 0 ∧
      th.off < next ∧ th.off ∉ offsets (curOp s.log))
    · intro hx; rw [hoff hx]; exact h.hold t (hh.1 hx)
    · exact fun u _ => h.hold u
  inj := by
    have key : ∀ u, ((s.setThr t th).thr u).holds →
        (s.thr u).holds ∧ ((s.setThr t th).thr u).off = (s.thr u).off := by
      apply forall_thr (P := fun u x => x.holds → (s.thr u).holds ∧ x.off = (s.thr u).off)
      · exact fun hx => ⟨hh.1 hx, hoff hx⟩
      · exact fun u _ hx => ⟨hx, rfl⟩
    intro u w hu hw he
    obtain ⟨hu1, hu2⟩ := key u hu
    obtain ⟨hw1, hw2⟩ := key w hw
    exact h.inj u w hu1 hw1 (by rw [← hu2, ← hw2, he])
  cov := by
    intro o h1 h2 h3
    rcases h.cov o h1 h2 h3 with h4 | h4
    · exact .inl h4
    · right
      exact exists_thr (P := fun x => x.holds ∧ x.off = o)
        (fun hx => ⟨hh.2 hx.1, by rw [hoff (hh.2 hx.1)]; exact hx.2⟩) h4
  call := by
    apply forall_thr (P := fun _ th => th.pc.inCallPc → th.off ∈ offsets (curOp s.log))
    · intro hx; rw [hc] at hx; cases hx
    · exact fun u _ => h.call u
  ret := by
    intro o ho
    rcases h.ret o ho with h4 | h4
    · exact .inl h4
    · right
      exact exists_thr (P := fun x => x.pc.inCallPc ∧ x.off = o)
        (fun hx => by rw [hc0] at hx; cases hx.1) h4
  nextLe := h.nextLe
  nextMod := h.nextMod
  nextCur := h.nextCur
  osz := h.osz
  sz := h.sz
  val := by
    apply forall_thr (P := fun _ th => th.valid ≤ bigOffset)
    · exact hval
    · exact fun u _ => h.val u

/-- The rest of the invariant under a change of one thread. -/
theorem NInv.local {k : Option Nat} {s : CS N} {arr : Fin N → Nat} {G base next : Nat} {run : Bool}
    (h : NInv k s arr G base next run) {t : Fin N} {th : CThr}
    (hT : TInv k (viewOf s base run) (isLead t) (arr t) th)
    (hin : th.pc.inBar = false → s.bar.wt t = .out)
    (hlead : run = true → isLead t → th.pc.rest → th.lastTrig ≠ s.trig)
    (hd : th.pc.delF = false) (hd0 : (s.thr t).pc.delF = false)
    (hcb : th.pc.cb = false) (hcb0 : (s.thr t).pc.cb = false) :
    NInv k (s.setThr t th) arr G base next run where
  bar := h.bar
  thr := by
    apply forall_thr (P := fun u x => TInv k (viewOf s base run) (isLead u) (arr u) x)
    · exact hT
    · exact fun u _ => h.thr u
  wtOut := by
    apply forall_thr (P := fun u x => x.pc.inBar = false → s.bar.wt u = .out)
    · exact hin
    · exact fun u _ => h.wtOut u
  runT := h.runT
  lead := fun hr => by
    apply forall_thr (P := fun u x => isLead u → x.pc.rest → x.lastTrig ≠ s.trig)
    · exact hlead hr
    · exact fun u _ => h.lead hr u
  err := fun hr => by
    refine (h.err hr).trans (or_congr Iff.rfl ⟨fun hx => ?_, fun hx => ?_⟩)
    · exact exists_thr (P := fun x => x.pc.delF) (fun hx => by rw [hd0] at hx; cases hx) hx
    · exact exists_thr_rev (P := fun x => x.pc.delF) (fun hx => by rw [hd] at hx; cases hx) hx
  stop := h.stop
  runF := h.runF
  cb := by
    have : ∀ u, ∀ ok, ((s.setThr t th).thr u).pc = .callback ok →
        started s.log = true ∧ EvOk k s.log (.finalized ok) := by
      apply forall_thr (P := fun u x => ∀ ok, x.pc = .callback ok →
        started s.log = true ∧ EvOk k s.log (.finalized ok))
      · intro ok hx; rw [hx] at hcb; cases hcb
      · exact fun u _ => h.cb u
    exact this
  noCb := fun hr hst hall => by
    refine h.noCb hr hst fun u => ?_
    by_cases hu : u = t
    · subst hu; exact hcb0
    · have := hall u
      rwa [thr_ne s th hu] at this
  tr := h.tr

theorem QInv.local {s : CS N} (h : QInv s) {t : Fin N} {th : CThr}
    (hin : th.pc.inBar = false → s.bar.wt t = .out) (hs : th.pc.sleeps = false) :
    QInv (s.setThr t th) where
  bar := h.bar
  sleep := by
    apply forall_thr (P := fun u x => x.pc.sleeps = false)
    · exact hs
    · exact fun u _ => h.sleep u
  cur := h.cur
  wtOut := by
    apply forall_thr (P := fun u x => x.pc.inBar = false → s.bar.wt u = .out)
    · exact hin
    · exact fun u _ => h.wtOut u

theorem CInv.local {k : Option Nat} {s : CS N} {arr : Fin N → Nat} {G base next : Nat} {run : Bool}
    (h : CInv k s arr G base next run) {t : Fin N} {th : CThr}
    (hT : s.quit = false → TInv k (viewOf s base run) (isLead t) (arr t) th)
    (hh : th.holds ↔ (s.thr t).holds) (hoff : th.holds → th.off = (s.thr t).off)
    (hc : th.pc.inCallPc = false) (hc0 : (s.thr t).pc.inCallPc = false)
    (hin : th.pc.inBar = false → s.bar.wt t = .out)
    (hlead : s.quit = false → run = true → isLead t → th.pc.rest → th.lastTrig ≠ s.trig)
    (hd : th.pc.delF = false) (hd0 : (s.thr t).pc.delF = false)
    (hcb : th.pc.cb = false) (hcb0 : (s.thr t).pc.cb = false)
    (hs : s.quit = true → th.pc.sleeps = false)
    (hval : th.valid ≤ bigOffset := by exact h.b.val t) :
    CInv k (s.setThr t th) arr G base next run where
  b := h.b.local hh hoff hc hc0 hval
  n := fun hq => (h.n hq).local (hT hq) hin (hlead hq) hd hd0 hcb hcb0
  q := fun hq => (h.q hq).local hin (hs hq)

theorem CInv.out {k : Option Nat} {s : CS N} {arr : Fin N → Nat} {G base next : Nat} {run : Bool}
    (h : CInv k s arr G base next run) {t : Fin N} (ht : (s.thr t).pc.inBar = false) :
    s.bar.wt t = .out := by
  cases hq : s.quit with
  | false => exact (h.n hq).wtOut t ht
  | true => exact (h.q hq).wtOut t ht

theorem epochOf_zero (k : Option Nat) : epochOf k 0 = 0 := by
  cases k <;> simp [epochOf]

/-- A thread in the operation, so it is running. -/
theorem NInv.run_of {k : Option Nat} {s : CS N} {arr : Fin N → Nat} {G base next : Nat} {run : Bool}
    (h : NInv k s arr G base next run) {t : Fin N} (ha : arr t ≠ base + epochOf k (opSize s.log) + 1) :
    run = true := by
  cases hr : run with
  | true => rfl
  | false => exact absurd ((h.runF hr).2.2.2.2.1 t) ha

section steps
variable {k : Option Nat} {s : CS N} {arr : Fin N → Nat} {G base next : Nat} {run : Bool} {t : Fin N}

theorem inv_topQuit (h : CInv k s arr G base next run) (hpc : (s.thr t).pc = .top) (hq : s.quit = true) :
    CInv k (s.setPc t .done) arr G base next run := by
  have hw := h.out (t := t) (by rw [hpc]; rfl)
  apply h.local
  · intro hq'; rw [hq] at hq'; cases hq'
  · simp [CThr.holds, hpc]
  · simp [CThr.holds]
  · rfl
  · rw [hpc]; rfl
  · exact fun _ => hw
  · intro hq'; rw [hq] at hq'; cases hq'
  · rfl
  · rw [hpc]; rfl
  · rfl
  · rw [hpc]; rfl
  · exact fun _ => rfl

theorem inv_topGo (h : CInv k s arr G base next run) (hpc : (s.thr t).pc = .top) (hq : s.quit = false) :
    CInv k (s.setPc t .trig) arr G base next run := by
  have hw := h.out (t := t) (by rw [hpc]; rfl)
  have hT := (h.n hq).thr t
  simp only [TInv, hpc] at hT
  apply h.local
  · intro _; simp only [TInv]; exact hT
  · simp [CThr.holds, hpc]
  · simp [CThr.holds]
  · rfl
  · rw [hpc]; rfl
  · exact fun _ => hw
  · intro _ hr hl _; exact (h.n hq).lead hr t hl (by rw [hpc]; rfl)
  · rfl
  · rw [hpc]; rfl
  · rfl
  · rw [hpc]; rfl
  · exact fun _ => rfl

theorem inv_trigGo (h : CInv k s arr G base next run) (hpc : (s.thr t).pc = .trig)
    (hp : s.trig ≠ (s.thr t).lastTrig ∨ s.quit = true) :
    CInv k (s.setThr t { s.thr t with pc := .enter, lastTrig := s.trig }) arr G base next run := by
  have hw := h.out (t := t) (by rw [hpc]; rfl)
  apply h.local
  · intro hq
    have hT := (h.n hq).thr t
    simp only [TInv, hpc] at hT
    have hne := hp.resolve_right (by rw [hq]; simp)
    rcases hT with hT | hT
    · exact absurd hT.1.symm hne
    · simp only [TInv]
      refine ⟨rfl, ?_, hT.2⟩
      have ha : arr t = base := hT.2
      exact (h.n hq).run_of (t := t) (by omega)
  · simp [CThr.holds, hpc]
  · simp [CThr.holds]
  · rfl
  · rw [hpc]; rfl
  · exact fun _ => hw
  · intro _ _ _ hr; cases hr
  · rfl
  · rw [hpc]; rfl
  · rfl
  · rw [hpc]; rfl
  · exact fun _ => rfl

theorem inv_trigWait (h : CInv k s arr G base next run) (hpc : (s.thr t).pc = .trig)
    (hp : s.trig = (s.thr t).lastTrig ∧ s.quit = false) :
    CInv k (s.setPc t .trigSleep) arr G base next run := by
  have hw := h.out (t := t) (by rw [hpc]; rfl)
  apply h.local
  · intro hq
    have hT := (h.n hq).thr t
    simp only [TInv, hpc] at hT
    rcases hT with hT | hT
    · exact hT
    · have h1 : (s.thr t).lastTrig + 1 = s.trig := hT.1
      rw [hp.1] at h1
      exact absurd h1 (succ_ne32 _)
  · simp [CThr.holds, hpc]
  · simp [CThr.holds]
  · rfl
  · rw [hpc]; rfl
  · exact fun _ => hw
  · intro hq hr hl _; exact (h.n hq).lead hr t hl (by rw [hpc]; rfl)
  · rfl
  · rw [hpc]; rfl
  · rfl
  · rw [hpc]; rfl
  · intro hq; rw [hp.2] at hq; cases hq

theorem inv_enter (h : CInv k s arr G base next run) (hpc : (s.thr t).pc = .enter) :
    CInv k (s.setThr t { s.thr t with
        pc := .fetch, lastOff := 0, valid := s.size - s.size % blockSize }) arr G base next run := by
  have hw := h.out (t := t) (by rw [hpc]; rfl)
  have hval : s.size - s.size % blockSize ≤ bigOffset := by
    have := h.b.sz
    have := h.b.osz
    omega
  apply h.local (hval := hval)
  · intro hq
    have hT := (h.n hq).thr t
    simp only [TInv, hpc] at hT
    simp only [TInv]
    refine ⟨hT.1, hT.2.1, ?_, ?_, Nat.zero_le _, Nat.zero_le _⟩
    · have := ((h.n hq).runT hT.2.1).1
      rw [this]; rfl
    · rw [epochOf_zero]; exact hT.2.2
  · simp [CThr.holds, hpc]
  · simp [CThr.holds]
  · rfl
  · rw [hpc]; rfl
  · exact fun _ => hw
  · intro _ _ _ hr; cases hr
  · rfl
  · rw [hpc]; rfl
  · rfl
  · rw [hpc]; rfl
  · exact fun _ => rfl

theorem inv_epochOut {r : Nat} (h : CInv k s arr G base next run) (hpc : (s.thr t).pc = .epochIn r)
    (hw : s.bar.wt t = .out) : CInv k (s.setPc t (.epoch r)) arr G base next run := by
  apply h.local
  · intro hq
    have hT := (h.n hq).thr t
    simp only [TInv, hpc] at hT
    simp only [TInv]
    exact hT
  · simp [CThr.holds, hpc]
  · exact fun _ => rfl
  · rfl
  · rw [hpc]; rfl
  · exact fun _ => hw
  · intro _ _ _ hr; cases hr
  · rfl
  · rw [hpc]; rfl
  · rfl
  · rw [hpc]; rfl
  · exact fun _ => rfl

theorem inv_epochEnd (hk : EpochSetting k) (h : CInv k s arr G base next run)
    (hpc : (s.thr t).pc = .epoch 0) :
    CInv k (s.setThr t { s.thr t with
        pc := if (s.thr t).valid ≤ (s.thr t).off then .fin else .handle
        lastOff := (s.thr t).off }) arr G base next run := by
  have hw := h.out (t := t) (by rw [hpc]; rfl)
  by_cases hv : (s.thr t).valid ≤ (s.thr t).off
  · rw [if_pos hv]
    apply h.local
    · intro hq
      have hT := (h.n hq).thr t
      simp only [TInv, hpc] at hT
      obtain ⟨h1, h2, h3, h4, h5⟩ := hT
      simp only [TInv]
      rw [h3] at hv
      rw [epochOf_min hk hv] at h4
      have h6 := h.b.osz
      have h7 := vld_le (opSize s.log)
      have h8 : vld (opSize s.log) ≤ (s.thr t).off := hv
      have h9 : vld (opSize s.log) ≤ bigOffset := by omega
      exact ⟨h1, h2, h4, Nat.le_trans (Nat.le_min.2 ⟨h8, h9⟩) h5⟩
    · simp [CThr.holds, hpc]; exact hv
    · exact fun _ => rfl
    · rfl
    · rw [hpc]; rfl
    · exact fun _ => hw
    · intro _ _ _ hr; cases hr
    · rfl
    · rw [hpc]; rfl
    · rfl
    · rw [hpc]; rfl
    · exact fun _ => rfl
  · rw [if_neg hv]
    apply h.local
    · intro hq
      have hT := (h.n hq).thr t
      simp only [TInv, hpc] at hT
      obtain ⟨h1, h2, h3, h4, h5⟩ := hT
      simp only [TInv]
      have hvl := vld_le (viewOf s base run).osz
      rw [Nat.min_eq_left (by omega)] at h4
      have := h.b.val t
      rw [Nat.min_eq_left (by omega)] at h5
      exact ⟨h1, h2, h3, by omega, h4, h5, trivial⟩
    · simp [CThr.holds, hpc]; omega
    · exact fun _ => rfl
    · rfl
    · rw [hpc]; rfl
    · exact fun _ => hw
    · intro _ _ _ hr; cases hr
    · rfl
    · rw [hpc]; rfl
    · rfl
    · rw [hpc]; rfl
    · exact fun _ => rfl

theorem inv_handle (h : CInv k s arr G base next run) (hpc : (s.thr t).pc = .handle) :
    CInv k (s.setPc t (.deliver true)) arr G base next run ∧
    CInv k (s.setPc t .failed) arr G base next run := by
  have hw := h.out (t := t) (by rw [hpc]; rfl)
  constructor
  all_goals
    apply h.local
    · intro hq
      have hT := (h.n hq).thr t
      simp only [TInv, hpc] at hT
      simp only [TInv]
      exact hT
    · simp [CThr.holds, hpc]
    · exact fun _ => rfl
    · rfl
    · rw [hpc]; rfl
    · exact fun _ => hw
    · intro _ _ _ hr; cases hr
    · rfl
    · rw [hpc]; rfl
    · rfl
    · rw [hpc]; rfl
    · exact fun _ => rfl

theorem inv_finGo (h : CInv k s arr G base next run) (hpc : (s.thr t).pc = .fin)
    (hp : s.finalizing = true ∨ s.quit = true) : CInv k (s.setPc t .finArr) arr G base next run := by
  have hw := h.out (t := t) (by rw [hpc]; rfl)
  apply h.local
  · intro hq
    have hT := (h.n hq).thr t
    simp only [TInv, hpc] at hT
    simp only [TInv]
    exact ⟨hT.1, hT.2.1, hT.2.2.1, hT.2.2.2, hp.resolve_right (by rw [hq]; simp)⟩
  · simp [CThr.holds, hpc]
  · exact fun _ => rfl
  · rfl
  · rw [hpc]; rfl
  · exact fun _ => hw
  · intro _ _ _ hr; cases hr
  · rfl
  · rw [hpc]; rfl
  · rfl
  · rw [hpc]; rfl
  · exact fun _ => rfl

theorem inv_finWait (h : CInv k s arr G base next run) (hpc : (s.thr t).pc = .fin)
    (hp : s.finalizing = false ∧ s.quit = false) : CInv k (s.setPc t .finSleep) arr G base next run := by
  have hw := h.out (t := t) (by rw [hpc]; rfl)
  apply h.local
  · intro hq
    have hT := (h.n hq).thr t
    simp only [TInv, hpc] at hT
    simp only [TInv]
    exact ⟨hT.1, hT.2.1, hT.2.2.1, hT.2.2.2, hp.1⟩
  · simp [CThr.holds, hpc]
  · exact fun _ => rfl
  · rfl
  · rw [hpc]; rfl
  · exact fun _ => hw
  · intro _ _ _ hr; cases hr
  · rfl
  · rw [hpc]; rfl
  · rfl
  · rw [hpc]; rfl
  · intro hq; rw [hp.2] at hq; cases hq

theorem inv_finOut (h : CInv k s arr G base next run) (hpc : (s.thr t).pc = .finIn)
    (hw : s.bar.wt t = .out) :
    CInv k (s.setPc t (if t.val = 0 then .reset else .top)) arr G base next run := by
  by_cases h0 : t.val = 0
  · rw [if_pos h0]
    apply h.local
    · intro hq
      have hT := (h.n hq).thr t
      simp only [TInv, hpc] at hT
      simp only [TInv]
      have hl : isLead t = true := by simp [isLead, h0]
      rcases hT with hT | hT
      · have hr := hT.2.2.2 hl
        exact ⟨hl, hT.1, hT.2.1, hr, hT.2.2.1 hr⟩
      · rw [hl] at hT; cases hT.2.2
    · simp [CThr.holds, hpc]
    · exact fun _ => rfl
    · rfl
    · rw [hpc]; rfl
    · exact fun _ => hw
    · intro _ _ _ hr; cases hr
    · rfl
    · rw [hpc]; rfl
    · rfl
    · rw [hpc]; rfl
    · exact fun _ => rfl
  · rw [if_neg h0]
    apply h.local
    · intro hq
      have hT := (h.n hq).thr t
      simp only [TInv, hpc] at hT
      simp only [TInv]
      rcases hT with hT | hT
      · exact .inl ⟨hT.1, hT.2.1⟩
      · exact .inr ⟨hT.1, hT.2.1⟩
    · simp [CThr.holds, hpc]
    · exact fun _ => rfl
    · rfl
    · rw [hpc]; rfl
    · exact fun _ => hw
    · intro _ _ hl; simp [isLead, h0] at hl
    · rfl
    · rw [hpc]; rfl
    · rfl
    · rw [hpc]; rfl
    · exact fun _ => rfl

theorem inv_resetQuit (h : CInv k s arr G base next run) (hpc : (s.thr t).pc = .reset) (hq : s.quit = true) :
    CInv k (s.setPc t .top) arr G base next run := by
  have hw := h.out (t := t) (by rw [hpc]; rfl)
  apply h.local
  · intro hq'; rw [hq] at hq'; cases hq'
  · simp [CThr.holds, hpc]
  · exact fun _ => rfl
  · rfl
  · rw [hpc]; rfl
  · exact fun _ => hw
  · intro hq'; rw [hq] at hq'; cases hq'
  · rfl
  · rw [hpc]; rfl
  · rfl
  · rw [hpc]; rfl
  · exact fun _ => rfl

theorem inv_callbackDone (h : CInv k s arr G base next run) (hpc : (s.thr t).pc = .inCallback) :
    CInv k (s.setPc t .top) arr G base next run := by
  have hw := h.out (t := t) (by rw [hpc]; rfl)
  apply h.local
  · intro hq
    have hT := (h.n hq).thr t
    simp only [TInv, hpc] at hT
    simp only [TInv]
    exact hT.2
  · simp [CThr.holds, hpc]
  · exact fun _ => rfl
  · rfl
  · rw [hpc]; rfl
  · exact fun _ => hw
  · intro hq hr hl _; exact (h.n hq).lead hr t hl (by rw [hpc]; rfl)
  · rfl
  · rw [hpc]; rfl
  · rfl
  · rw [hpc]; rfl
  · exact fun _ => rfl

theorem inv_spuriousCv (h : CInv k s arr G base next run)
    (hpc : (s.thr t).pc = .trigSleep ∨ (s.thr t).pc = .finSleep) :
    CInv k (s.setThr t (s.thr t).wake) arr G base next run := by
  rcases hpc with hpc | hpc
  · have hw := h.out (t := t) (by rw [hpc]; rfl)
    have he : (s.thr t).wake = { s.thr t with pc := .trig } := by simp [CThr.wake, hpc]
    rw [he]
    apply h.local
    · intro hq
      have hT := (h.n hq).thr t
      simp only [TInv, hpc] at hT
      simp only [TInv]
      exact .inl hT
    · simp [CThr.holds, hpc]
    · exact fun _ => rfl
    · rfl
    · rw [hpc]; rfl
    · exact fun _ => hw
    · intro hq hr hl _; exact (h.n hq).lead hr t hl (by rw [hpc]; rfl)
    · rfl
    · rw [hpc]; rfl
    · rfl
    · rw [hpc]; rfl
    · exact fun _ => rfl
  · have hw := h.out (t := t) (by rw [hpc]; rfl)
    have he : (s.thr t).wake = { s.thr t with pc := .fin } := by simp [CThr.wake, hpc]
    rw [he]
    apply h.local
    · intro hq
      have hT := (h.n hq).thr t
      simp only [TInv, hpc] at hT
      simp only [TInv]
      exact ⟨hT.1, hT.2.1, hT.2.2.1, hT.2.2.2.1⟩
    · simp [CThr.holds, hpc]
    · exact fun _ => rfl
    · rfl
    · rw [hpc]; rfl
    · exact fun _ => hw
    · intro _ _ _ hr; cases hr
    · rfl
    · rw [hpc]; rfl
    · rfl
    · rw [hpc]; rfl
    · exact fun _ => rfl

end steps

end Lib842
