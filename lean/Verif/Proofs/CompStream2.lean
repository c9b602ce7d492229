import Verif.Proofs.CompStream
/-!
# Invariants of the compression stream: steps that change the shared state
-/

namespace Lib842
open Spec

variable {N : Nat}

/-- The blocks do not depend on the rest of the state. -/
theorem BInv.congr {s s' : CS N} {next : Nat} {run run' : Bool} (h : BInv s next run)
    (hthr : ∀ t, ((s'.thr t).holds ↔ (s.thr t).holds) ∧ (s'.thr t).off = (s.thr t).off ∧
      (s'.thr t).pc.inCallPc = (s.thr t).pc.inCallPc ∧ (s'.thr t).valid = (s.thr t).valid)
    (ho : offsets (curOp s'.log) = offsets (curOp s.log)) (hos : opSize s'.log = opSize s.log)
    (hret : ∀ o, .returned o ∈ curOp s.log → .returned o ∈ curOp s'.log)
    (hcur : run' = true → s'.cur < bigOffset → next = s'.cur) (hsz : s'.size ≤ s.size) :
    BInv s' next run' where
  nd := by rw [ho]; exact h.nd
  lt := by rw [ho, hos]; exact h.lt
  hold := fun t ht => by
    rw [ho, hos, (hthr t).2.1]; exact h.hold t ((hthr t).1.1 ht)
  inj := fun t u ht hu he => by
    rw [(hthr t).2.1, (hthr u).2.1] at he
    exact h.inj t u ((hthr t).1.1 ht) ((hthr u).1.1 hu) he
  cov := fun o h1 h2 h3 => by
    rw [hos] at h1
    rw [ho]
    rcases h.cov o h1 h2 h3 with h4 | ⟨t, h4, h5⟩
    · exact .inl h4
    · exact .inr ⟨t, (hthr t).1.2 h4, by rw [(hthr t).2.1]; exact h5⟩
  call := fun t ht => by
    rw [ho, (hthr t).2.1]
    exact h.call t (by rw [← (hthr t).2.2.1]; exact ht)
  ret := fun o h1 => by
    rw [ho] at h1
    rcases h.ret o h1 with h4 | ⟨t, h4, h5⟩
    · exact .inl (hret o h4)
    · exact .inr ⟨t, by rw [(hthr t).2.2.1]; exact h4, by rw [(hthr t).2.1]; exact h5⟩
  nextLe := h.nextLe
  nextMod := h.nextMod
  nextCur := hcur
  osz := by rw [hos]; exact h.osz
  sz := by rw [hos]; exact Nat.le_trans hsz h.sz
  val := fun t => by rw [(hthr t).2.2.2]; exact h.val t

/-- One thread and shared members change. -/
theorem congr_thr {s : CS N} {t : Fin N} {th : CThr} {P : CThr → CThr → Prop} (h0 : ∀ x, P x x)
    (ht : P th (s.thr t)) : ∀ u, P ((s.setThr t th).thr u) (s.thr u) := by
  intro u
  by_cases hu : u = t
  · subst hu; rw [thr_self]; exact ht
  · rw [thr_ne s th hu]; exact h0 _

theorem wake_holds (th : CThr) : (th.wake.holds ↔ th.holds) ∧ th.wake.off = th.off ∧
    th.wake.pc.inCallPc = th.pc.inCallPc ∧ th.wake.valid = th.valid := by
  unfold CThr.wake
  split
  · rename_i h; simp [CThr.holds, h, CPc.inCallPc]
  · rename_i h; simp [CThr.holds, h, CPc.inCallPc]
  · simp

theorem wake_inBar (th : CThr) : th.wake.pc.inBar = th.pc.inBar ∧ th.wake.pc.delF = th.pc.delF ∧
    th.wake.pc.cb = th.pc.cb ∧ th.wake.pc.rest = th.pc.rest ∧ th.wake.lastTrig = th.lastTrig ∧
    th.wake.pc.sleeps = false := by
  unfold CThr.wake
  split
  · rename_i h; simp [h, CPc.inBar, CPc.delF, CPc.cb, CPc.rest, CPc.sleeps]
  · rename_i h; simp [h, CPc.inBar, CPc.delF, CPc.cb, CPc.rest, CPc.sleeps]
  · rename_i h1 h2
    refine ⟨rfl, rfl, rfl, rfl, rfl, ?_⟩
    cases hp : th.pc <;> simp_all [CPc.sleeps]

theorem wake_callback (th : CThr) (ok : Bool) : th.wake.pc = .callback ok ↔ th.pc = .callback ok := by
  unfold CThr.wake
  split
  · rename_i h; simp [h]
  · rename_i h; simp [h]
  · simp

/-- More offsets have been fetched. -/
theorem TInv.mono {k : Option Nat} {v : CV} {l : Bool} {a : Nat} {th : CThr} (h : TInv k v l a th)
    (ho : v.osz < bigOffset) {c : Nat} (hc : v.cur ≤ c ∨ bigOffset ≤ c) (hval : th.valid ≤ bigOffset) :
    TInv k { v with cur := c } l a th := by
  have hv := vld_le v.osz
  unfold TInv at h ⊢
  split at h
  all_goals try simp only
  all_goals first
    | exact h
    | (obtain ⟨h1, h2, h3, h4, h5, h6⟩ := h; exact ⟨h1, h2, h3, h4, by omega, h6⟩)
    | (obtain ⟨h1, h2, h3, h4, h5⟩ := h; exact ⟨h1, h2, h3, h4, by omega⟩)
    | (obtain ⟨h1, h2, h3, h4, h5, h6, h7⟩ := h; exact ⟨h1, h2, h3, h4, h5, by omega, h7⟩)
    | (obtain ⟨h1, h2, h3, h4⟩ := h; exact ⟨h1, h2, h3, by omega⟩)
    | (obtain ⟨h1, h2, h3, h4, h5⟩ := h; exact ⟨h1, h2, h3, by omega, h5⟩)
    | (rcases h with ⟨h1, h2, h3, h4⟩ | h
       · exact .inl ⟨h1, h2, fun hr => ⟨(h3 hr).1, by have := (h3 hr).2; omega⟩, h4⟩
       · exact .inr h)
    | (obtain ⟨h1, h2, h3, h4, h5, h6⟩ := h; exact ⟨h1, h2, h3, h4, h5, by omega⟩)

section steps
variable {k : Option Nat} {s : CS N} {arr : Fin N → Nat} {G base next : Nat} {run : Bool} {t : Fin N}

theorem big_mod : bigOffset % blockSize = 0 := by decide

theorem inv_fetch (h : CInv k s arr G base next run) (hpc : (s.thr t).pc = .fetch) :
    ∃ next', CInv k ({ s with cur := s.cur + blockSize }.setThr t { s.thr t with
        pc := .epoch (numEpochs k s.cur s.size (s.thr t).lastOff), off := s.cur }) arr G base next' run := by
  have hval := h.b.val t
  have hB : 0 < blockSize := by decide
  have hwt := h.out (t := t) (by rw [hpc]; rfl)
  by_cases hbig : bigOffset ≤ s.cur
  · -- no block
    have hn : ∀ th : CThr, (∃ r, th.pc = .epoch r) → th.off = s.cur → th.valid = (s.thr t).valid → ¬ th.holds := by
      rintro th ⟨r, hr⟩ ho hv
      simp only [CThr.holds, hr]
      omega
    refine ⟨next, ?_, ?_, ?_⟩
    · have h1 : BInv ({ s with cur := s.cur + blockSize } : CS N) next run :=
        h.b.congr (fun t => ⟨Iff.rfl, rfl, rfl, rfl⟩) rfl rfl (fun _ hx => hx)
          (fun _ hx => by simp only at hx; omega) (Nat.le_refl _)
      apply h1.local
      · constructor
        · intro hx; exact absurd hx (hn _ ⟨_, rfl⟩ rfl rfl)
        · intro hx; simp [CThr.holds, hpc] at hx
      · intro hx; exact absurd hx (hn _ ⟨_, rfl⟩ rfl rfl)
      · rfl
      · show (s.thr t).pc.inCallPc = false
        rw [hpc]; rfl
      · exact hval
    · intro hq
      have hN := h.n hq
      have hT := hN.thr t
      simp only [TInv, hpc] at hT
      obtain ⟨t1, t2, t3, t4, t5, t6⟩ := hT
      have t2' : run = true := t2
      have hsz := (hN.runT t2').1
      have h1 : NInv k ({ s with cur := s.cur + blockSize } : CS N) arr G base next run :=
        { bar := hN.bar, wtOut := hN.wtOut, runT := hN.runT, lead := hN.lead, err := hN.err
          thr := fun u => (hN.thr u).mono h.b.osz (c := s.cur + blockSize)
            (.inl (by show s.cur ≤ _; omega)) (h.b.val u)
          stop := fun hr _ => hN.stop hr hbig
          runF := fun hr => by rw [t2'] at hr; cases hr
          cb := hN.cb, noCb := hN.noCb, tr := hN.tr }
      apply h1.local
      · simp only [TInv]
        refine ⟨t1, t2, t3, ?_, ?_⟩
        · rw [numEpochs_eq, hsz, t4]
          have : epochOf k (s.thr t).lastOff ≤ epochOf k (min s.cur (opSize s.log)) :=
            epochOf_mono k (Nat.le_min.2 ⟨t5, t6⟩)
          show base + _ + _ = base + epochOf k (min s.cur (opSize s.log))
          omega
        · show min s.cur bigOffset ≤ s.cur + blockSize
          omega
      · exact fun _ => hwt
      · intro _ _ hx; cases hx
      · rfl
      · show (s.thr t).pc.delF = false
        rw [hpc]; rfl
      · rfl
      · show (s.thr t).pc.cb = false
        rw [hpc]; rfl
    · intro hq
      have hQ := h.q hq
      have h1 : QInv ({ s with cur := s.cur + blockSize } : CS N) :=
        { bar := hQ.bar, sleep := hQ.sleep, wtOut := hQ.wtOut
          cur := by show bigOffset ≤ s.cur + blockSize; omega }
      exact h1.local (fun _ => hwt) rfl
  · -- running, not stopped
    have hq : s.quit = false := by
      cases hq : s.quit with
      | false => rfl
      | true => exact absurd (h.q hq).cur hbig
    have hN := h.n hq
    have hT := hN.thr t
    simp only [TInv, hpc] at hT
    obtain ⟨t1, t2, t3, t4, t5, t6⟩ := hT
    have t2' : run = true := t2
    have hsz := (hN.runT t2').1
    have hnext := h.b.nextCur t2' (by omega)
    have hmod := h.b.nextMod
    have hbm := big_mod
    have hle : s.cur + blockSize ≤ bigOffset := by
      rw [hnext] at hmod
      unfold blockSize bigOffset at *
      omega
    refine ⟨s.cur + blockSize, ?_, ?_, ?_⟩
    · have hold : ∀ u, u ≠ t → (s.thr u).holds → (s.thr u).off < s.cur := by
        intro u _ hu
        have := (h.b.hold u hu).2.2.1
        omega
      refine ⟨h.b.nd, ?_, ?_, ?_, ?_, ?_, ?_, hle, ?_, fun _ _ => rfl, h.b.osz, h.b.sz, ?_⟩
      · intro o ho
        obtain ⟨h1, h2, h3⟩ := h.b.lt o ho
        exact ⟨h1, h2, by omega⟩
      · apply forall_thr (P := fun _ th => th.holds → th.off < vld (opSize s.log) ∧ th.off % blockSize = 0 ∧
          th.off < s.cur + blockSize ∧ th.off ∉ offsets (curOp s.log))
        · intro hx
          simp only [CThr.holds] at hx
          refine ⟨?_, ?_, ?_, ?_⟩
          · show s.cur < vld (opSize s.log)
            have : (s.thr t).valid = vld (opSize s.log) := t3
            omega
          · show s.cur % blockSize = 0
            rw [← hnext]; exact hmod
          · show s.cur < s.cur + blockSize
            omega
          · intro hm
            have := (h.b.lt _ hm).2.2
            have e : s.cur < next := this
            omega
        · intro u _ hu
          obtain ⟨h1, h2, h3, h4⟩ := h.b.hold u hu
          exact ⟨h1, h2, by show (s.thr u).off < _; omega, h4⟩
      · intro u w hu hw he
        by_cases hut : u = t <;> by_cases hwt' : w = t
        · rw [hut, hwt']
        · subst hut
          rw [thr_ne _ _ hwt'] at hw he
          rw [thr_self] at he
          have := hold w hwt' hw
          have he' : s.cur = (s.thr w).off := he
          omega
        · subst hwt'
          rw [thr_ne _ _ hut] at hu he
          rw [thr_self] at he
          have := hold u hut hu
          have he' : (s.thr u).off = s.cur := he
          omega
        · rw [thr_ne _ _ hut] at hu he
          rw [thr_ne _ _ hwt'] at hw he
          exact h.b.inj u w hu hw he
      · intro o h1 h2 h3
        by_cases ho : o < s.cur
        · rcases h.b.cov o h1 h2 (by omega) with h4 | ⟨u, h4, h5⟩
          · exact .inl h4
          · right
            refine ⟨u, ?_⟩
            have hut : u ≠ t := by
              rintro rfl
              simp [CThr.holds, hpc] at h4
            rw [thr_ne _ _ hut]
            exact ⟨h4, h5⟩
        · right
          have ho : o = s.cur := by
            rw [hnext] at hmod
            unfold blockSize at *
            omega
          refine ⟨t, ?_⟩
          rw [thr_self]
          refine ⟨?_, ho.symm⟩
          show s.cur < (s.thr t).valid
          have e1 : (s.thr t).valid = vld (opSize s.log) := t3
          have e2 : o < vld (opSize s.log) := h1
          omega
      · apply forall_thr (P := fun _ th => th.pc.inCallPc → th.off ∈ offsets (curOp s.log))
        · intro hx; cases hx
        · exact fun u _ => h.b.call u
      · intro o ho
        rcases h.b.ret o ho with h4 | h4
        · exact .inl h4
        · right
          exact exists_thr (s := { s with cur := s.cur + blockSize }) (P := fun x => x.pc.inCallPc ∧ x.off = o)
            (fun hx => by simp [hpc, CPc.inCallPc] at hx) h4
      · rw [hnext] at hmod
        unfold blockSize at *
        omega
      · apply forall_thr (P := fun _ th => th.valid ≤ bigOffset)
        · exact hval
        · exact fun u _ => h.b.val u
    · intro _
      have h1 : NInv k ({ s with cur := s.cur + blockSize } : CS N) arr G base (s.cur + blockSize) run :=
        { bar := hN.bar, wtOut := hN.wtOut, runT := hN.runT, lead := hN.lead, err := hN.err
          thr := fun u => (hN.thr u).mono h.b.osz (c := s.cur + blockSize)
            (.inl (by show s.cur ≤ _; omega)) (h.b.val u)
          stop := fun hr hx => by
            right; right
            have hx' : bigOffset ≤ s.cur + blockSize := hx
            have := vld_le (opSize s.log)
            have := h.b.osz
            show vld (opSize s.log) ≤ s.cur + blockSize
            omega
          runF := fun hr => by rw [t2'] at hr; cases hr
          cb := hN.cb, noCb := hN.noCb, tr := hN.tr }
      apply h1.local
      · simp only [TInv]
        refine ⟨t1, t2, t3, ?_, ?_⟩
        · rw [numEpochs_eq, hsz, t4]
          have : epochOf k (s.thr t).lastOff ≤ epochOf k (min s.cur (opSize s.log)) :=
            epochOf_mono k (Nat.le_min.2 ⟨t5, t6⟩)
          show base + _ + _ = base + epochOf k (min s.cur (opSize s.log))
          omega
        · show min s.cur bigOffset ≤ s.cur + blockSize
          omega
      · exact fun _ => hwt
      · intro _ _ hx; cases hx
      · rfl
      · show (s.thr t).pc.delF = false
        rw [hpc]; rfl
      · rfl
      · show (s.thr t).pc.cb = false
        rw [hpc]; rfl
    · intro hq'
      have : s.quit = true := hq'
      rw [hq] at this; cases this

end steps

end Lib842
