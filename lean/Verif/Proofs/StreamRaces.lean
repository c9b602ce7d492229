import Verif.Proofs.CompStream6
import Verif.Proofs.DecompStream4
import Verif.Model.StreamRaces
/-!
# Where the threads are when parameters of an operation are written
-/

namespace Lib842
open Spec

variable {N : Nat}

/-- Between operations or after the final barrier. -/
def CPc.idle : CPc → Bool
  | .top | .trig | .trigSleep | .finIn | .reset | .callback _ | .inCallback => true
  | _ => false

def DPc.idle : DPc → Bool
  | .top | .trig | .trigSleep | .finIn | .reset | .callback _ | .inCallback => true
  | _ => false

theorem CPc.idle_of_end {pc : CPc}
    (h : pc.rest = true ∨ pc = .finIn ∨ pc = .reset ∨ pc.cb = true) : pc.idle = true := by
  cases pc <;> simp_all [CPc.rest, CPc.cb, CPc.idle]

theorem DPc.idle_of_end {pc : DPc}
    (h : pc.rest = true ∨ pc = .finIn ∨ pc = .reset ∨ pc.cb = true) : pc.idle = true := by
  cases pc <;> simp_all [DPc.rest, DPc.cb, DPc.idle]

theorem creach_reset_idle {k : Option Nat} (hk : EpochSetting k) {s : CS N} (h : CReach k s) (hq : s.quit = false)
    {t : Fin N} (hpc : (s.thr t).pc = .reset) (u : Fin N) : (s.thr u).pc.idle = true := by
  obtain ⟨arr, G, base, next, run, hi⟩ := creach_inv hk h
  have hw := hi.out (t := t) (by rw [hpc]; rfl)
  have hN := hi.n hq
  have hT := hN.thr t
  simp only [TInv, hpc] at hT
  have l3 : arr t = base + epochOf k (opSize s.log) + 1 := hT.2.2.1
  have hG := hN.bar.out_arr hw
  have h1 : arr u ≤ base + epochOf k (opSize s.log) + 1 := (hN.thr u).le
  have h2 := hN.bar.ph u
  exact CPc.idle_of_end ((hN.thr u).atEnd (show arr u = base + epochOf k (opSize s.log) + 1 by omega)).2

/-- When `start` may be called, all threads are idle, and none is about to reset the stream. -/
theorem creach_start_idle {k : Option Nat} (hk : EpochSetting k) {s : CS N} (h : CReach k s) (hq : s.quit = false)
    (hm : mayStart s.log) (u : Fin N) : (s.thr u).pc.idle = true ∧ (s.thr u).pc ≠ .reset := by
  obtain ⟨arr, G, base, next, run, hi⟩ := creach_inv hk h
  have hN := hi.n hq
  have hr : run = false := by
    cases hr : run with
    | false => rfl
    | true =>
      obtain ⟨_, r2, r3, _⟩ := hN.runT hr
      rcases hm with h1 | ⟨ok, h1⟩
      · rw [r2] at h1; cases h1
      · exact absurd h1 (r3 ok)
  obtain ⟨_, _, _, _, f5, _⟩ := hN.runF hr
  refine ⟨CPc.idle_of_end ((hN.thr u).atEnd (f5 u)).2, fun hp => ?_⟩
  have hT := hN.thr u
  simp only [TInv, hp] at hT
  have : run = true := hT.2.2.2.1
  rw [hr] at this; cases this

theorem dreach_start_idle {s : DS N} (h : DReach s) (hq : s.quit = false)
    (hm : dmayStart s.log) (u : Fin N) : (s.thr u).pc.idle = true ∧ (s.thr u).pc ≠ .reset := by
  obtain ⟨arr, G, base, run, hi⟩ := dreach_inv h
  have hN := hi.n hq
  have hr : run = false := by
    cases hr : run with
    | false => rfl
    | true =>
      obtain ⟨r2, r3, _⟩ := hN.runT hr
      rcases hm with h1 | ⟨ok, h1⟩
      · rw [r2] at h1; cases h1
      · exact absurd h1 (r3 ok)
  obtain ⟨_, _, _, f5, _⟩ := hN.runF hr
  refine ⟨DPc.idle_of_end ((hN.thr u).atEnd (f5 u)).2, fun hp => ?_⟩
  have hT := hN.thr u
  simp only [DTInv, hp] at hT
  have : run = true := hT.2.2.2.1
  rw [hr] at this; cases this

/-- A thread that is idle and not about to reset the stream accesses nothing else. -/
theorem CPc.accs_idle {pc : CPc} (h : pc.idle = true) (hr : pc ≠ .reset) {q : Bool} {a : Access CMem}
    (ha : a ∈ pc.accs q) : a.var = .quit ∨ a.var = .trigger := by
  cases pc <;> simp [CPc.idle] at h hr <;> simp [CPc.accs, rd, rdL] at ha <;> aesop

theorem DPc.accs_idle {pc : DPc} (h : pc.idle = true) (hr : pc ≠ .reset) {q : Bool} {a : Access DMem}
    (ha : a ∈ pc.accs q) : a.var = .quit ∨ a.var = .trigger := by
  cases pc <;> simp [DPc.idle] at h hr <;> simp [DPc.accs, rd, rdL] at ha <;> aesop

/-- Only the leader about to reset the stream, and the critical section after an error, write. -/
theorem CPc.accs_write {pc : CPc} {q : Bool} {a : Access CMem} (ha : a ∈ pc.accs q) (hw : a.write = true) :
    a.locked = true ∧ ((pc = .reset ∧ q = false) ∨ a.var = .error) ∧ a.var ≠ .quit ∧ a.var ≠ .epochLog := by
  cases pc <;> cases q <;> simp [CPc.accs, rd, rdL, wrL] at ha <;> aesop

/-- Without the mutex threads do not access what the mutex protects, but for `_quit`. -/
theorem CPc.accs_params {pc : CPc} {q : Bool} {a : Access CMem} (ha : a ∈ pc.accs q) (hl : a.locked = false) :
    (a = rd .quit ∧ pc = .top) ∨ (pc.idle = false ∧
      (a = rd .size ∨ a = rd .epochLog ∨ a = rd .ptr ∨ a = rd .blockCallback)) := by
  cases pc <;> cases q <;> simp [CPc.accs, rd, rdL, wrL] at ha <;> simp [CPc.idle, rd] <;> aesop

theorem DPc.accs_write {pc : DPc} {q : Bool} {a : Access DMem} (ha : a ∈ pc.accs q) (hw : a.write = true) :
    a.locked = true ∧ a.var ≠ .quit ∧ a.var ≠ .ptr := by
  cases pc <;> cases q <;> simp [DPc.accs, rd, rdL, wrL] at ha <;> aesop

theorem DPc.accs_params {pc : DPc} {q : Bool} {a : Access DMem} (ha : a ∈ pc.accs q) (hl : a.locked = false) :
    (a = rd .quit ∧ pc = .top) ∨ (pc.idle = false ∧ a = rd .ptr) := by
  cases pc <;> cases q <;> simp [DPc.accs, rd, rdL, wrL] at ha <;> simp [DPc.idle, rd] <;> aesop

/-- Two agents with conflicting accesses, one of which does not hold the mutex. -/
theorem RaceOn.split {A V : Type} {acc : A → Access V → Prop} {v : V} (h : RaceOn acc v) :
    ∃ x y a b, x ≠ y ∧ acc x a ∧ acc y b ∧ a.var = v ∧ b.var = v ∧ (a.write = true ∨ b.write = true) ∧
      a.locked = false := by
  obtain ⟨x, y, a, b, hn, ha, hb, hv, hc1, hc2, hc3⟩ := h
  cases hl : a.locked with
  | false => exact ⟨x, y, a, b, hn, ha, hb, hv, hc1 ▸ hv, hc2, hl⟩
  | true =>
    refine ⟨y, x, b, a, hn.symm, hb, ha, hc1 ▸ hv, hv, hc2.symm, ?_⟩
    cases hl' : b.locked with
    | false => rfl
    | true => exact absurd ⟨hl, hl'⟩ hc3

theorem comp_race {k : Option Nat} (hk : EpochSetting k) {s : CS N} (h : CReach k s) {v : CMem}
    (hr : RaceOn s.acc v) : v = .quit ∧ s.quit = false ∧ ∃ t, (s.thr t).pc = .top := by
  obtain ⟨x, y, a, b, hn, ha, hb, hav, hbv, hw, hl⟩ := RaceOn.split hr
  cases x with
  | some t =>
    cases y with
    | some u =>
      have hw' : b.write = true := by
        rcases hw with hw | hw
        · have := (CPc.accs_write ha hw).1
          rw [hl] at this; cases this
        · exact hw
      obtain ⟨_, b2, b3, b4⟩ := CPc.accs_write hb hw'
      rcases CPc.accs_params ha hl with ⟨rfl, _⟩ | ⟨hi, ha'⟩
      · exact absurd (hbv.trans hav.symm) b3
      · rcases b2 with ⟨b2, b2'⟩ | b2
        · rw [creach_reset_idle hk h b2' b2 t] at hi; cases hi
        · rw [hbv, ← hav] at b2
          rcases ha' with rfl | rfl | rfl | rfl <;> cases b2
    | none =>
      rcases CPc.accs_params ha hl with ⟨rfl, hp⟩ | ⟨hi, ha'⟩
      · refine ⟨hav.symm, ?_, t, hp⟩
        cases hb <;> assumption
      · cases hb with
        | start hq hm _ => rw [(creach_start_idle hk h hq hm t).1] at hi; cases hi
        | setEpoch hq hm _ => rw [(creach_start_idle hk h hq hm t).1] at hi; cases hi
        | finalize hq hm hm' =>
          rw [← hav] at hbv
          rcases ha' with rfl | rfl | rfl | rfl <;> simp at hm' <;> rcases hm' with rfl | rfl <;> cases hbv
        | destroy hq =>
          rw [← hav] at hbv
          rcases ha' with rfl | rfl | rfl | rfl <;> cases hbv
  | none =>
    cases y with
    | none => exact absurd rfl hn
    | some u =>
      have key : ∀ hq : s.quit = false, mayStart s.log → a.var ≠ .quit → a.var ≠ .trigger → False := by
        intro hq hm h1 h2
        obtain ⟨i1, i2⟩ := creach_start_idle hk h hq hm u
        rcases CPc.accs_idle i1 i2 hb with h3 | h3
        · exact h1 (by rw [hav, ← hbv, h3])
        · exact h2 (by rw [hav, ← hbv, h3])
      cases ha with
      | start hq hm hm' =>
        refine (key hq hm ?_ ?_).elim <;>
          (simp at hm'; rcases hm' with rfl | rfl | rfl | rfl | rfl <;> first | (cases hl; done) | (intro hx; cases hx))
      | setEpoch hq hm hm' =>
        refine (key hq hm ?_ ?_).elim <;> (simp at hm'; rcases hm' with rfl | rfl <;> intro hx <;> cases hx)
      | finalize hq hm hm' => simp at hm'; rcases hm' with rfl | rfl <;> cases hl
      | destroy hq => cases hl

theorem decomp_race {s : DS N} (h : DReach s) {v : DMem}
    (hr : RaceOn s.acc v) : v = .quit ∧ s.quit = false ∧ ∃ t, (s.thr t).pc = .top := by
  obtain ⟨x, y, a, b, hn, ha, hb, hav, hbv, hw, hl⟩ := RaceOn.split hr
  cases x with
  | some t =>
    cases y with
    | some u =>
      have hw' : b.write = true := by
        rcases hw with hw | hw
        · have := (DPc.accs_write ha hw).1
          rw [hl] at this; cases this
        · exact hw
      obtain ⟨_, b3, b4⟩ := DPc.accs_write hb hw'
      rcases DPc.accs_params ha hl with ⟨rfl, _⟩ | ⟨hi, rfl⟩
      · exact absurd (hbv.trans hav.symm) b3
      · exact absurd (hbv.trans hav.symm) b4
    | none =>
      rcases DPc.accs_params ha hl with ⟨rfl, hp⟩ | ⟨hi, rfl⟩
      · refine ⟨hav.symm, ?_, t, hp⟩
        cases hb <;> assumption
      · cases hb with
        | start hq hm _ => rw [(dreach_start_idle h hq hm t).1] at hi; cases hi
        | push hq hm hm' =>
          rw [← hav] at hbv
          simp at hm'; rcases hm' with rfl | rfl | rfl <;> cases hbv
        | finalize hq hm hm' =>
          rw [← hav] at hbv
          simp at hm'; rcases hm' with rfl | rfl | rfl <;> cases hbv
        | destroy hq =>
          rw [← hav] at hbv
          cases hbv
  | none =>
    cases y with
    | none => exact absurd rfl hn
    | some u =>
      cases ha with
      | start hq hm hm' =>
        obtain ⟨i1, i2⟩ := dreach_start_idle h hq hm u
        have h3 := DPc.accs_idle i1 i2 hb
        rw [hbv, ← hav] at h3
        simp at hm'
        rcases hm' with rfl | rfl | rfl
        · rcases h3 with h3 | h3 <;> cases h3
        · cases hl
        · cases hl
      | push hq hm hm' => simp at hm'; rcases hm' with rfl | rfl | rfl <;> cases hl
      | finalize hq hm hm' => simp at hm'; rcases hm' with rfl | rfl | rfl <;> cases hl
      | destroy hq => cases hl

/-- Once `start` may be called, it may be until it is called. -/
theorem mayStart_work {k : Option Nat} {s s' : CS N} {t : Fin N} (h : CWork k t s s') (hm : mayStart s.log) :
    mayStart s'.log := by
  have key : ∀ e : Ev, e.isStart = false → mayStart (e :: s.log) := by
    intro e he
    rcases hm with h1 | ⟨ok, h1⟩
    · left; simpa [started, he] using h1
    · right; exact ⟨ok, by simp [curOp, he]; right; exact h1⟩
  cases h with
  | deliver h => rename_i ok; cases ok <;> exact key _ rfl
  | callDone h => exact key _ rfl
  | callback h => exact key _ rfl
  | _ => exact hm

theorem dmayStart_work {s s' : DS N} {t : Fin N} (h : DWork t s s') (hm : dmayStart s.log) :
    dmayStart s'.log := by
  have key : ∀ e : DEv, e.isStart = false → dmayStart (e :: s.log) := by
    intro e he
    rcases hm with h1 | ⟨ok, h1⟩
    · left; simpa [dstarted, he] using h1
    · right; exact ⟨ok, by simp [dcurOp, he]; right; exact h1⟩
  cases h with
  | popTake h => exact key _ rfl
  | handleOk h => exact key _ rfl
  | handleFail h => exact key _ rfl
  | callback h => exact key _ rfl
  | _ => exact hm

end Lib842
