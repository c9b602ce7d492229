import Verif.Proofs.CompStream2
/-!
# Invariants of the compression stream: barrier, blocks, operations
-/

namespace Lib842
open Spec

variable {N : Nat}

theorem arrive_out {b : Bar N} {t u : Fin N} (hu : u ≠ t) (h : b.wt u = .out) : (b.arrive t).wt u = .out := by
  unfold Bar.arrive
  split
  · show (b.wt u).wake = .out
    rw [h]; rfl
  · split
    · exact h
    · show Function.update b.wt t _ u = .out
      rw [Function.update_of_ne hu]; exact h

theorem isLead_inj {t u : Fin N} (ht : isLead t = true) (hu : isLead u = true) : t = u := by
  simp only [isLead, decide_eq_true_eq] at ht hu
  exact Fin.ext (by omega)

section steps
variable {k : Option Nat} {s : CS N} {arr : Fin N → Nat} {G base next : Nat} {run : Bool} {t : Fin N}

/-- While an operation runs, its finalize callback is not about to be called. -/
theorem NInv.noCallback (h : NInv k s arr G base next run) (hr : run = true) (u : Fin N) (ok : Bool) :
    (s.thr u).pc ≠ .callback ok := by
  intro hu
  have hT := h.thr u
  simp only [TInv, hu] at hT
  have : run = false := hT.2.2.2
  rw [hr] at this; cases this

/-- Only the barrier changes. -/
theorem inv_bar (h : CInv k s arr G base next run) {b : Bar N} (hb : s.quit = false → BarInv b G arr)
    (hq : s.quit = true → BarAwake b) (hwt : ∀ u, s.bar.wt u = .out → b.wt u = .out) :
    CInv k { s with bar := b } arr G base next run where
  b := h.b.congr (fun _ => ⟨Iff.rfl, rfl, rfl, rfl⟩) rfl rfl (fun _ hx => hx) h.b.nextCur (Nat.le_refl _)
  n := fun hq => by
    have hN := h.n hq
    exact { bar := hb hq, thr := hN.thr, wtOut := fun u hu => hwt u (hN.wtOut u hu), runT := hN.runT,
            lead := hN.lead, err := hN.err, stop := hN.stop, runF := hN.runF, cb := hN.cb, noCb := hN.noCb,
            tr := hN.tr }
  q := fun hq' => by
    have hQ := h.q hq'
    exact { bar := hq hq', sleep := hQ.sleep, cur := hQ.cur, wtOut := fun u hu => hwt u (hQ.wtOut u hu) }

theorem inv_recheck (h : CInv k s arr G base next run) {g : BitVec 32} (hw : s.bar.wt t = .awake g) :
    CInv k { s with bar := s.bar.recheck t g } arr G base next run := by
  apply inv_bar h
  · exact fun hq => ((h.n hq).bar.recheck hw).1
  · exact fun hq => (h.q hq).bar.recheck.1
  · intro u hu
    have hut : u ≠ t := by rintro rfl; rw [hw] at hu; cases hu
    unfold Bar.recheck
    split <;> (show Function.update s.bar.wt t _ u = .out; rw [Function.update_of_ne hut]; exact hu)

theorem inv_spuriousBar (h : CInv k s arr G base next run) {g : BitVec 32} (hw : s.bar.wt t = .asleep g) :
    CInv k { s with bar := s.bar.spurious t } arr G base next run := by
  apply inv_bar h
  · exact fun hq => (h.n hq).bar.spurious hw
  · exact fun hq => absurd hw ((h.q hq).bar.2 t g)
  · intro u hu
    have hut : u ≠ t := by rintro rfl; rw [hw] at hu; cases hu
    unfold Bar.spurious
    rw [hw]
    show Function.update s.bar.wt t _ u = .out
    rw [Function.update_of_ne hut]; exact hu

/-- A thread calls the barrier. -/
theorem inv_arrive (h : CInv k s arr G base next run) {th : CThr} (hw : s.bar.wt t = .out)
    (hT : s.quit = false → run = true ∧ TInv k (viewOf s base run) (isLead t) (arr t + 1) th)
    (hh : th.holds ↔ (s.thr t).holds) (hoff : th.holds → th.off = (s.thr t).off)
    (hin : th.pc.inBar = true)
    (hc0 : (s.thr t).pc.inCallPc = false) (hd0 : (s.thr t).pc.delF = false)
    (hval : th.valid ≤ bigOffset) :
    ∃ arr' G', CInv k ({ s with bar := s.bar.arrive t }.setThr t th) arr' G' base next run := by
  have hc : th.pc.inCallPc = false := by cases hp : th.pc <;> simp_all [CPc.inBar, CPc.inCallPc]
  have hd : th.pc.delF = false := by
    cases hp : th.pc <;> simp_all [CPc.inBar, CPc.delF]
  have hr' : th.pc.rest = false := by cases hp : th.pc <;> simp_all [CPc.inBar, CPc.rest]
  have hcb : th.pc.cb = false := by cases hp : th.pc <;> simp_all [CPc.inBar, CPc.cb]
  have hsl : th.pc.sleeps = false := by cases hp : th.pc <;> simp_all [CPc.inBar, CPc.sleeps]
  have hB : BInv ({ s with bar := s.bar.arrive t } : CS N) next run :=
    h.b.congr (fun _ => ⟨Iff.rfl, rfl, rfl, rfl⟩) rfl rfl (fun _ hx => hx) h.b.nextCur (Nat.le_refl _)
  have hB' := hB.local (t := t) (th := th) hh hoff hc hc0 hval
  have hqq : s.quit = true ∨ s.quit = false := by cases s.quit <;> simp
  rcases hqq with hq | hq
  · refine ⟨arr, G, hB', fun hq' => ?_, fun _ => ?_⟩
    · have : s.quit = false := hq'
      rw [hq] at this; cases this
    · have hQ := h.q hq
      refine ⟨hQ.bar.arrive.1, ?_, hQ.cur, ?_⟩
      · apply forall_thr (P := fun u x => x.pc.sleeps = false)
        · exact hsl
        · exact fun u _ => hQ.sleep u
      · apply forall_thr (P := fun u x => x.pc.inBar = false → (s.bar.arrive t).wt u = .out)
        · intro hx; rw [hin] at hx; cases hx
        · exact fun u hu hx => arrive_out hu (hQ.wtOut u hx)
  · have hN := h.n hq
    obtain ⟨hr, hT⟩ := hT hq
    have main : ∀ G', BarInv (s.bar.arrive t) G' (Function.update arr t (arr t + 1)) →
        CInv k ({ s with bar := s.bar.arrive t }.setThr t th) (Function.update arr t (arr t + 1)) G' base next run := by
      intro G' hbar
      refine ⟨hB', fun _ => ?_, fun hq' => ?_⟩
      · exact
        { bar := hbar
          thr := by
            apply forall_thr (P := fun u x => TInv k (viewOf s base run) (isLead u)
              (Function.update arr t (arr t + 1) u) x)
            · rw [Function.update_self]; exact hT
            · intro u hu
              rw [Function.update_of_ne hu]; exact hN.thr u
          wtOut := by
            apply forall_thr (P := fun u x => x.pc.inBar = false → (s.bar.arrive t).wt u = .out)
            · intro hx; rw [hin] at hx; cases hx
            · exact fun u hu hx => arrive_out hu (hN.wtOut u hx)
          runT := hN.runT
          lead := fun hr => by
            apply forall_thr (P := fun u x => isLead u → x.pc.rest → x.lastTrig ≠ s.trig)
            · intro _ hx; rw [hr'] at hx; cases hx
            · exact fun u _ => hN.lead hr u
          err := fun hr => by
            refine (hN.err hr).trans (or_congr Iff.rfl ⟨fun hx => ?_, fun hx => ?_⟩)
            · exact exists_thr (s := { s with bar := s.bar.arrive t }) (P := fun x => x.pc.delF)
                (fun hx => by have hx : (s.thr t).pc.delF = true := hx; rw [hd0] at hx; cases hx) hx
            · exact exists_thr_rev (s := { s with bar := s.bar.arrive t }) (P := fun x => x.pc.delF)
                (fun hx => by rw [hd] at hx; cases hx) hx
          stop := hN.stop
          runF := fun hf => by rw [hr] at hf; cases hf
          cb := by
            have : ∀ u, ∀ ok, (({ s with bar := s.bar.arrive t } : CS N).setThr t th |>.thr u).pc = .callback ok →
                started s.log = true ∧ EvOk k s.log (.finalized ok) := by
              apply forall_thr (P := fun u x => ∀ ok, x.pc = .callback ok →
                started s.log = true ∧ EvOk k s.log (.finalized ok))
              · intro ok hx; rw [hx] at hcb; cases hcb
              · exact fun u _ => hN.cb u
            exact this
          noCb := fun hf => by rw [hr] at hf; cases hf
          tr := hN.tr }
      · have : s.quit = true := hq'
        rw [hq] at this; cases this
    rcases hN.bar.arrive hw with ⟨h1, _⟩ | ⟨h1, _, _⟩
    · exact ⟨_, _, main _ h1⟩
    · exact ⟨_, _, main _ h1⟩

theorem inv_epochArrive {r : Nat} (h : CInv k s arr G base next run) (hpc : (s.thr t).pc = .epoch (r + 1)) :
    ∃ arr' G', CInv k ({ s with bar := s.bar.arrive t }.setPc t (.epochIn r)) arr' G' base next run := by
  apply inv_arrive h
  · exact h.out (by rw [hpc]; rfl)
  · intro hq
    have hT := (h.n hq).thr t
    simp only [TInv, hpc] at hT
    refine ⟨hT.2.1, ?_⟩
    simp only [TInv]
    exact ⟨hT.1, hT.2.1, hT.2.2.1, by have := hT.2.2.2.1; show arr t + 1 + r = _; omega, hT.2.2.2.2⟩
  · simp [CThr.holds, hpc]
  · exact fun _ => rfl
  · rfl
  · rw [hpc]; rfl
  · rw [hpc]; rfl
  · exact h.b.val t

theorem inv_finArrive (h : CInv k s arr G base next run) (hpc : (s.thr t).pc = .finArr) :
    ∃ arr' G', CInv k ({ s with bar := s.bar.arrive t }.setPc t .finIn) arr' G' base next run := by
  apply inv_arrive h
  · exact h.out (by rw [hpc]; rfl)
  · intro hq
    have hT := (h.n hq).thr t
    simp only [TInv, hpc] at hT
    refine ⟨hT.2.1, ?_⟩
    simp only [TInv]
    exact .inl ⟨hT.1, by have := hT.2.2.1; show arr t + 1 = _; omega, fun _ => ⟨hT.2.2.2.2, hT.2.2.2.1⟩,
      fun _ => hT.2.1⟩
  · simp [CThr.holds, hpc]
  · exact fun _ => rfl
  · rfl
  · rw [hpc]; rfl
  · rw [hpc]; rfl
  · exact h.b.val t

theorem inv_failed (h : CInv k s arr G base next run) (hpc : (s.thr t).pc = .failed) :
    CInv k ({ s with error := true, cur := bigOffset }.setPc t (.deliver false)) arr G base next run := by
  have hw := h.out (t := t) (by rw [hpc]; rfl)
  refine ⟨?_, fun hq => ?_, fun hq => ?_⟩
  · apply h.b.congr
    · apply congr_thr (s := { s with error := true, cur := bigOffset }) (P := fun x y => (x.holds ↔ y.holds) ∧
        x.off = y.off ∧ x.pc.inCallPc = y.pc.inCallPc ∧ x.valid = y.valid)
      · exact fun _ => ⟨Iff.rfl, rfl, rfl, rfl⟩
      · simp [CThr.holds, hpc, CPc.inCallPc]
    · rfl
    · rfl
    · exact fun _ hx => hx
    · intro _ hx
      exact absurd hx (Nat.lt_irrefl _)
    · exact Nat.le_refl _
  · have hN := h.n hq
    have hT := hN.thr t
    simp only [TInv, hpc] at hT
    have hr : run = true := hT.2.1
    exact
    { bar := hN.bar
      thr := by
        apply forall_thr (P := fun u x => TInv k { viewOf s base run with cur := bigOffset } (isLead u) (arr u) x)
        · simp only [TInv]
          refine ⟨hT.1, hT.2.1, hT.2.2.1, hT.2.2.2.1, hT.2.2.2.2.1, ?_, hT.2.2.2.2.2.2⟩
          have := h.b.val t
          have := hT.2.2.2.1
          omega
        · exact fun u _ => (hN.thr u).mono h.b.osz (.inr (Nat.le_refl _)) (h.b.val u)
      wtOut := by
        apply forall_thr (P := fun u x => x.pc.inBar = false → s.bar.wt u = .out)
        · exact fun _ => hw
        · exact fun u _ => hN.wtOut u
      runT := hN.runT
      lead := fun hr => by
        apply forall_thr (P := fun u x => isLead u → x.pc.rest → x.lastTrig ≠ s.trig)
        · intro _ hx; cases hx
        · exact fun u _ => hN.lead hr u
      err := fun _ => ⟨fun _ => .inr ⟨t, by rw [CS.setPc, thr_self]; rfl⟩, fun _ => rfl⟩
      stop := fun _ _ => .inl rfl
      runF := fun hf => by rw [hr] at hf; cases hf
      cb := by
        have : ∀ u, ∀ ok, (({ s with error := true, cur := bigOffset } : CS N).setThr t
            { s.thr t with pc := .deliver false } |>.thr u).pc = .callback ok →
            started s.log = true ∧ EvOk k s.log (.finalized ok) := by
          apply forall_thr (P := fun u x => ∀ ok, x.pc = .callback ok →
            started s.log = true ∧ EvOk k s.log (.finalized ok))
          · intro ok hx; cases hx
          · exact fun u _ => hN.cb u
        exact this
      noCb := fun hf => by rw [hr] at hf; cases hf
      tr := hN.tr }
  · have hQ := h.q hq
    have h1 : QInv ({ s with error := true, cur := bigOffset } : CS N) :=
      { bar := hQ.bar, sleep := hQ.sleep, wtOut := hQ.wtOut, cur := Nat.le_refl _ }
    exact h1.local (fun _ => hw) rfl

/-- The event of a block. -/
def blockEv (ok : Bool) (o : Nat) : Ev := if ok then .block o else .failBlock o

theorem blockEv_start (ok : Bool) (o : Nat) : (blockEv ok o).isStart = false := by
  cases ok <;> rfl

theorem offsets_blockEv (ok : Bool) (o : Nat) (l : List Ev) : offsets (blockEv ok o :: l) = o :: offsets l := by
  cases ok <;> rfl

theorem mem_blockEv {ok : Bool} {o : Nat} {e : Ev} {l : List Ev} (he : ∀ o, e ≠ .block o ∧ e ≠ .failBlock o) :
    e ∈ blockEv ok o :: l ↔ e ∈ l := by
  simp only [List.mem_cons, or_iff_right_iff_imp]
  intro h
  cases ok
  · exact absurd h (he o).2
  · exact absurd h (he o).1

/-- A thread that holds a block of an earlier epoch keeps the barrier closed. -/
theorem NInv.holds_epoch (h : NInv k s arr G base next run) {u : Fin N}
    (hu : (s.thr u).holds ∨ (s.thr u).pc.inCallPc = true) : arr u ≤ base + epochOf k (s.thr u).off := by
  have hT := h.thr u
  have hv := vld_le (opSize s.log)
  rcases hu with hu | hu
  · unfold CThr.holds at hu
    unfold TInv at hT
    split at hu
    · rename_i hpc
      rw [hpc] at hT
      obtain ⟨_, _, h3, h4, _⟩ := hT
      have h3' : (s.thr u).valid = vld (opSize s.log) := h3
      rw [show min (s.thr u).off (viewOf s base run).osz = (s.thr u).off from
        Nat.min_eq_left (by show _ ≤ opSize s.log; omega)] at h4
      have : (viewOf s base run).base = base := rfl
      omega
    · rename_i hpc
      rw [hpc] at hT
      obtain ⟨_, _, h3, h4, _⟩ := hT
      have h3' : (s.thr u).valid = vld (opSize s.log) := h3
      rw [show min (s.thr u).off (viewOf s base run).osz = (s.thr u).off from
        Nat.min_eq_left (by show _ ≤ opSize s.log; omega)] at h4
      have : (viewOf s base run).base = base := rfl
      omega
    · rename_i hpc; rw [hpc] at hT; exact Nat.le_of_eq hT.2.2.2.2.1
    · rename_i hpc; rw [hpc] at hT; exact Nat.le_of_eq hT.2.2.2.2.1
    · rename_i hpc; rw [hpc] at hT; exact Nat.le_of_eq hT.2.2.2.2.1
    · cases hu
  · cases hpc : (s.thr u).pc <;> rw [hpc] at hu <;> simp [CPc.inCallPc] at hu
    simp only [TInv, hpc] at hT
    exact Nat.le_of_eq hT.2.2.2.2.1

theorem inv_deliver {ok : Bool} (h : CInv k s arr G base next run) (hpc : (s.thr t).pc = .deliver ok) :
    CInv k ({ s with log := (if ok then .block (s.thr t).off else .failBlock (s.thr t).off) :: s.log }.setPc t
      (.inCall ok)) arr G base next run := by
  have hw := h.out (t := t) (by rw [hpc]; rfl)
  have hhold : (s.thr t).holds := by simp [CThr.holds, hpc]
  obtain ⟨b1, b2, b3, b4⟩ := h.b.hold t hhold
  have hco : curOp (blockEv ok (s.thr t).off :: s.log) = blockEv ok (s.thr t).off :: curOp s.log :=
    curOp_cons (blockEv_start ..) _
  have hof : offsets (curOp (blockEv ok (s.thr t).off :: s.log)) = (s.thr t).off :: offsets (curOp s.log) := by
    rw [hco, offsets_blockEv]
  have hos : opSize (blockEv ok (s.thr t).off :: s.log) = opSize s.log := opSize_cons (blockEv_start ..) _
  have hst : started (blockEv ok (s.thr t).off :: s.log) = started s.log := started_cons (blockEv_start ..) _
  show CInv k ({ s with log := blockEv ok (s.thr t).off :: s.log }.setThr t { s.thr t with pc := .inCall ok })
    arr G base next run
  refine ⟨⟨?_, ?_, ?_, ?_, ?_, ?_, ?_, h.b.nextLe, h.b.nextMod, h.b.nextCur, ?_, ?_, ?_⟩, fun hq => ?_, fun hq => ?_⟩
  · show (offsets (curOp (blockEv ok (s.thr t).off :: s.log))).Nodup
    rw [hof]
    exact List.nodup_cons.2 ⟨b4, h.b.nd⟩
  · show ∀ o ∈ offsets (curOp (blockEv ok (s.thr t).off :: s.log)),
      o < vld (opSize (blockEv ok (s.thr t).off :: s.log)) ∧ o % blockSize = 0 ∧ o < next
    rw [hof, hos]
    intro o ho
    rcases List.mem_cons.1 ho with rfl | ho
    · exact ⟨b1, b2, b3⟩
    · exact h.b.lt o ho
  · apply forall_thr (P := fun _ th => th.holds →
      th.off < vld (opSize (blockEv ok (s.thr t).off :: s.log)) ∧ th.off % blockSize = 0 ∧
      th.off < next ∧ th.off ∉ offsets (curOp (blockEv ok (s.thr t).off :: s.log)))
    · intro hx; simp [CThr.holds] at hx
    · intro u hu hx
      obtain ⟨c1, c2, c3, c4⟩ := h.b.hold u hx
      rw [hos, hof]
      refine ⟨c1, c2, c3, fun hm => ?_⟩
      rcases List.mem_cons.1 hm with hm | hm
      · exact hu (h.b.inj u t hx hhold hm)
      · exact c4 hm
  · have key : ∀ u, ((({ s with log := blockEv ok (s.thr t).off :: s.log } : CS N).setThr t
        { s.thr t with pc := .inCall ok }).thr u).holds → u ≠ t := by
      rintro u hx rfl
      rw [thr_self] at hx
      simp [CThr.holds] at hx
    intro u w hu hw he
    have hu' := key u hu
    have hw' := key w hw
    rw [thr_ne _ _ hu'] at hu he
    rw [thr_ne _ _ hw'] at hw he
    exact h.b.inj u w hu hw he
  · intro o h1 h2 h3
    have h1' : o < vld (opSize (blockEv ok (s.thr t).off :: s.log)) := h1
    rw [hos] at h1'
    show o ∈ offsets (curOp (blockEv ok (s.thr t).off :: s.log)) ∨ _
    rw [hof]
    rcases h.b.cov o h1' h2 h3 with h4 | ⟨u, h4, h5⟩
    · exact .inl (List.mem_cons_of_mem _ h4)
    · by_cases hu : u = t
      · subst hu
        left; rw [← h5]; exact List.mem_cons_self
      · right
        refine ⟨u, ?_⟩
        rw [thr_ne _ _ hu]
        exact ⟨h4, h5⟩
  · apply forall_thr (P := fun _ th => th.pc.inCallPc →
      th.off ∈ offsets (curOp (blockEv ok (s.thr t).off :: s.log)))
    · intro _; rw [hof]; exact List.mem_cons_self
    · intro u _ hx
      rw [hof]
      exact List.mem_cons_of_mem _ (h.b.call u hx)
  · show ∀ o ∈ offsets (curOp (blockEv ok (s.thr t).off :: s.log)),
      .returned o ∈ curOp (blockEv ok (s.thr t).off :: s.log) ∨ _
    rw [hof, hco]
    intro o ho
    rcases List.mem_cons.1 ho with rfl | ho
    · right
      exact ⟨t, by rw [thr_self]; rfl, by rw [thr_self]⟩
    · rcases h.b.ret o ho with h4 | ⟨u, h4, h5⟩
      · exact .inl (List.mem_cons_of_mem _ h4)
      · right
        have hu : u ≠ t := by
          rintro rfl
          rw [hpc] at h4; cases h4
        refine ⟨u, ?_⟩
        rw [thr_ne _ _ hu]
        exact ⟨h4, h5⟩
  · show opSize (blockEv ok (s.thr t).off :: s.log) < bigOffset
    rw [hos]; exact h.b.osz
  · show s.size ≤ opSize (blockEv ok (s.thr t).off :: s.log)
    rw [hos]; exact h.b.sz
  · apply forall_thr (P := fun _ th => th.valid ≤ bigOffset)
    · exact h.b.val t
    · exact fun u _ => h.b.val u
  · have hN := h.n hq
    have hT := hN.thr t
    simp only [TInv, hpc] at hT
    have hr : run = true := hT.2.1
    obtain ⟨r1, r2, r3, r4⟩ := hN.runT hr
    have hview : viewOf ({ s with log := blockEv ok (s.thr t).off :: s.log } : CS N) base run = viewOf s base run := by
      simp [viewOf, hos]
    exact
    { bar := hN.bar
      thr := by
        have : ∀ u, TInv k (viewOf ({ s with log := blockEv ok (s.thr t).off :: s.log } : CS N) base run)
            (isLead u) (arr u) ((({ s with log := blockEv ok (s.thr t).off :: s.log } : CS N).setThr t
              { s.thr t with pc := .inCall ok }).thr u) := by
          rw [hview]
          apply forall_thr (P := fun u x => TInv k (viewOf s base run) (isLead u) (arr u) x)
          · simp only [TInv]; exact hT
          · exact fun u _ => hN.thr u
        exact this
      wtOut := by
        apply forall_thr (P := fun u x => x.pc.inBar = false → s.bar.wt u = .out)
        · exact fun _ => hw
        · exact fun u _ => hN.wtOut u
      runT := fun _ => by
        show s.size = opSize (blockEv ok (s.thr t).off :: s.log) ∧
          started (blockEv ok (s.thr t).off :: s.log) = true ∧
          (∀ ok', .finalized ok' ∉ curOp (blockEv ok (s.thr t).off :: s.log)) ∧
          (s.finalizing = true ↔ ∃ c, .finalize c ∈ curOp (blockEv ok (s.thr t).off :: s.log))
        rw [hos, hst, hco]
        refine ⟨r1, r2, fun ok' => ?_, r4.trans (exists_congr fun c => ?_)⟩
        · rw [mem_blockEv (by simp)]; exact r3 ok'
        · rw [mem_blockEv (by simp)]
      lead := fun hr => by
        apply forall_thr (P := fun u x => isLead u → x.pc.rest → x.lastTrig ≠ s.trig)
        · intro _ hx; cases hx
        · exact fun u _ => hN.lead hr u
      err := fun _ => by
        show s.error = true ↔ (∃ o, .failBlock o ∈ curOp (blockEv ok (s.thr t).off :: s.log)) ∨ _
        rw [hco]
        cases ok with
        | false =>
          refine ⟨fun _ => .inl ⟨(s.thr t).off, List.mem_cons_self⟩, fun _ => ?_⟩
          exact (hN.err hr).2 (.inr ⟨t, by rw [hpc]; rfl⟩)
        | true =>
          refine (hN.err hr).trans (or_congr (exists_congr fun o => ?_) ⟨fun hx => ?_, fun hx => ?_⟩)
          · simp [blockEv]
          · exact exists_thr (s := { s with log := blockEv true (s.thr t).off :: s.log }) (P := fun x => x.pc.delF)
              (fun hx => by have hx : (s.thr t).pc.delF = true := hx; rw [hpc] at hx; cases hx) hx
          · exact exists_thr_rev (s := { s with log := blockEv true (s.thr t).off :: s.log })
              (P := fun x => x.pc.delF) (fun hx => by cases hx) hx
      stop := fun _ hb => by
        show s.error = true ∨ .finalize true ∈ curOp (blockEv ok (s.thr t).off :: s.log) ∨
          vld (opSize (blockEv ok (s.thr t).off :: s.log)) ≤ next
        rw [hco, hos, mem_blockEv (by simp)]
        exact hN.stop hr hb
      runF := fun hf => by rw [hr] at hf; cases hf
      cb := fun u ok' hx => by
        exfalso
        by_cases hu : u = t
        · subst hu
          rw [thr_self] at hx; cases hx
        · rw [thr_ne _ _ hu] at hx
          exact hN.noCallback hr u ok' hx
      noCb := fun hf => by rw [hr] at hf; cases hf
      tr := by
        refine ⟨?_, hN.tr⟩
        have hG := hN.bar.out_arr hw
        have ha : arr t = base + epochOf k (s.thr t).off := hT.2.2.2.2.1
        have key : (∀ ok, .finalized ok ∉ curOp s.log) ∧ (s.thr t).off % blockSize = 0 ∧
            (s.thr t).off + blockSize ≤ opSize s.log ∧ (s.thr t).off ∉ offsets (curOp s.log) ∧
            ∀ o', o' % blockSize = 0 → epochOf k o' < epochOf k (s.thr t).off →
              o' ∈ offsets (curOp s.log) ∧ .returned o' ∈ curOp s.log := by
          refine ⟨r3, b2, (vld_lt b2).1 b1, b4, fun o' ho1 ho2 => ?_⟩
          have hlt : o' < (s.thr t).off := by
            by_contra hc
            have := epochOf_mono k (Nat.le_of_not_lt hc)
            omega
          have no : ∀ u, (s.thr u).holds ∨ (s.thr u).pc.inCallPc = true → (s.thr u).off ≠ o' := by
            intro u hu he
            have := hN.holds_epoch hu
            rw [he] at this
            have := hN.bar.ph u
            omega
          have hm : o' ∈ offsets (curOp s.log) := by
            rcases h.b.cov o' (by omega) ho1 (by omega) with h4 | ⟨u, h4, h5⟩
            · exact h4
            · exact absurd h5 (no u (.inl h4))
          refine ⟨hm, ?_⟩
          rcases h.b.ret o' hm with h4 | ⟨u, h4, h5⟩
          · exact h4
          · exact absurd h5 (no u (.inr h4))
        cases ok
        · exact key
        · exact key }
  · have hQ := h.q hq
    have h1 : QInv ({ s with log := blockEv ok (s.thr t).off :: s.log } : CS N) :=
      { bar := hQ.bar, sleep := hQ.sleep, wtOut := hQ.wtOut, cur := hQ.cur }
    exact h1.local (fun _ => hw) rfl

end steps

end Lib842
