import Verif.Proofs.CompStream4
import Mathlib.Algebra.BigOperators.Fin
import Mathlib.Algebra.Order.BigOperators.Group.Finset
/-!
# The compression stream: no deadlock, termination, bound of the offset
-/

namespace Lib842
open Spec

variable {N : Nat}

/-! ## Threads that cannot move -/

/-- A thread without a step. -/
def CS.stuck (s : CS N) (t : Fin N) : Prop :=
  (s.thr t).pc = .trigSleep ∨ (s.thr t).pc = .finSleep ∨ (s.thr t).pc = .done ∨
    ∃ g, s.bar.wt t = .asleep g

theorem stuck_of {k : Option Nat} {s : CS N} {arr : Fin N → Nat} {G base next : Nat} {run : Bool}
    (h : CInv k s arr G base next run) {t : Fin N} (hno : ∀ s', ¬ CWork k t s s') : s.stuck t := by
  have key : ∀ s', CWork k t s s' → s.stuck t := fun s' h' => absurd h' (hno s')
  cases hw : s.bar.wt t with
  | asleep g => exact .inr (.inr (.inr ⟨g, hw⟩))
  | awake g => exact key _ (.recheck hw)
  | out =>
    cases hp : (s.thr t).pc with
    | top =>
      cases hq : s.quit with
      | true => exact key _ (.topQuit hp hq)
      | false => exact key _ (.topGo hp hq)
    | trig =>
      by_cases hc : s.trig ≠ (s.thr t).lastTrig ∨ s.quit = true
      · exact key _ (.trigGo hp hc)
      · refine key _ (.trigWait hp ?_)
        rw [not_or] at hc
        exact ⟨by simpa using hc.1, by simpa using hc.2⟩
    | trigSleep => exact .inl hp
    | enter => exact key _ (.enter hp)
    | fetch => exact key _ (.fetch hp)
    | epoch r =>
      cases r with
      | zero => exact key _ (.epochEnd hp)
      | succ r => exact key _ (.epochArrive hp)
    | epochIn r => exact key _ (.epochOut hp hw)
    | handle => exact key _ (.handleOk hp)
    | failed => exact key _ (.failed hp)
    | deliver ok => exact key _ (.deliver hp)
    | inCall ok => exact key _ (.callDone hp)
    | fin =>
      by_cases hc : s.finalizing = true ∨ s.quit = true
      · exact key _ (.finGo hp hc)
      · refine key _ (.finWait hp ?_)
        rw [not_or] at hc
        exact ⟨by simpa using hc.1, by simpa using hc.2⟩
    | finSleep => exact .inr (.inl hp)
    | finArr => exact key _ (.finArrive hp)
    | finIn => exact key _ (.finOut hp hw)
    | reset =>
      cases hq : s.quit with
      | true => exact key _ (.resetQuit hp hq)
      | false => exact key _ (.reset hp hq)
    | callback ok => exact key _ (.callback hp)
    | inCallback => exact key _ (.callbackDone hp)
    | done => exact .inr (.inr (.inl hp))

/-- If no thread can move, the stream waits for its user, or all threads have ended. -/
theorem quiescent {k : Option Nat} {s : CS N} {arr : Fin N → Nat} {G base next : Nat} {run : Bool}
    (h : CInv k s arr G base next run) (hN : 0 < N) (hst : ∀ t, s.stuck t) :
    (s.quit = true ∧ ∀ t, (s.thr t).pc = .done) ∨
    (s.quit = false ∧ (mayStart s.log ∨ mayFinalize s.log)) := by
  cases hq : s.quit with
  | true =>
    left
    refine ⟨rfl, fun t => ?_⟩
    have hQ := h.q hq
    rcases hst t with h1 | h1 | h1 | ⟨g, h1⟩
    · have := hQ.sleep t; rw [h1] at this; cases this
    · have := hQ.sleep t; rw [h1] at this; cases this
    · exact h1
    · exact absurd h1 (hQ.bar.2 t g)
  | false =>
    right
    refine ⟨rfl, ?_⟩
    have hI := h.n hq
    have noDone : ∀ t, (s.thr t).pc ≠ .done := by
      intro t ht
      have := hI.thr t
      simp only [TInv, ht] at this
    have noSleep : ∀ t g, s.bar.wt t ≠ .asleep g := by
      intro t g ht
      have hin : (s.thr t).pc.inBar = true := by
        cases hx : (s.thr t).pc.inBar with
        | true => rfl
        | false => have := hI.wtOut t hx; rw [ht] at this; cases this
      have hat : arr t = G + 1 := by
        rcases hI.bar.ph t with ha | ha
        · rcases hI.bar.old t ha with h2 | ⟨_, _, h2⟩ <;> rw [ht] at h2 <;> cases h2
        · exact ha
      obtain ⟨u, hu⟩ := hI.bar.exists_old hN
      have hTu := hI.thr u
      have hle : arr t ≤ base + epochOf k (opSize s.log) + 1 := (hI.thr t).le
      rcases hst u with h1 | h1 | h1 | ⟨g', h1⟩
      · simp only [TInv, h1] at hTu
        have : arr u = base + epochOf k (opSize s.log) + 1 := hTu.2
        omega
      · simp only [TInv, h1] at hTu
        obtain ⟨_, u2, u3, _, u5⟩ := hTu
        have u3' : arr u = base + epochOf k (opSize s.log) := u3
        have hend := (hI.thr t).atEnd (show arr t = base + epochOf k (opSize s.log) + 1 by omega)
        have hfin : (s.thr t).pc = .finIn := by
          rcases hend.2 with h2 | h2 | h2 | h2
          · cases hp : (s.thr t).pc <;> simp_all [CPc.rest, CPc.inBar]
          · exact h2
          · rw [h2] at hin; cases hin
          · cases hp : (s.thr t).pc <;> simp_all [CPc.cb, CPc.inBar]
        have hTt := hI.thr t
        simp only [TInv, hfin] at hTt
        rcases hTt with hTt | hTt
        · have := (hTt.2.2.1 u2).1
          rw [u5] at this; cases this
        · have : arr t = base := hTt.2.1
          omega
      · exact noDone u h1
      · rcases hI.bar.old u hu with h2 | ⟨_, _, h2⟩ <;> rw [h1] at h2 <;> cases h2
    -- the leader
    let t0 : Fin N := ⟨0, hN⟩
    have hl : isLead t0 = true := by simp [isLead, t0]
    have hT0 := hI.thr t0
    rcases hst t0 with h1 | h1 | h1 | ⟨g, h1⟩
    · left
      simp only [TInv, h1] at hT0
      have hr : run = false := by
        cases hr : run with
        | false => rfl
        | true => exact absurd hT0.1 (hI.lead hr t0 hl (by rw [h1]; rfl))
      cases hs : started s.log with
      | false => exact .inl hs
      | true =>
        right
        refine hI.noCb hr hs fun u => ?_
        rcases hst u with h2 | h2 | h2 | ⟨g, h2⟩
        · rw [h2]; rfl
        · rw [h2]; rfl
        · rw [h2]; rfl
        · exact absurd h2 (noSleep u g)
    · right
      simp only [TInv, h1] at hT0
      obtain ⟨_, r2, _, r4⟩ := hI.runT hT0.2.1
      refine ⟨r2, fun c hc => ?_⟩
      have : s.finalizing = true := r4.2 ⟨c, hc⟩
      have h5 : s.finalizing = false := hT0.2.2.2.2
      rw [h5] at this; cases this
    · exact absurd h1 (noDone t0)
    · exact absurd h1 (noSleep t0 g)

/-! ## Termination -/

/-- Weight of an arrival at the barrier: more than the number of threads it can wake. -/
def wArr (N : Nat) : Nat := N + 1

def wFetch (N : Nat) : Nat := 9 + wArr N + (wArr N + 1) * bigOffset

/-- Weight of a fetched block. -/
def wBlock (N : Nat) : Nat := 6 + (wArr N + 1) * bigOffset

/-- How far a thread is from the end of the operation. -/
def CThr.rank (N : Nat) (quit : Bool) (trig : BitVec 32) (th : CThr) : Nat :=
  let again (n : Nat) : Nat := if th.lastTrig ≠ trig ∧ quit = false then wFetch N + 1 + n else n
  match th.pc with
  | .done | .trigSleep => 0
  | .trig => if th.lastTrig ≠ trig ∨ quit = true then wFetch N + 2 else 1
  | .top => again 2
  | .inCallback => again 3
  | .callback _ => again 4
  | .reset => again 5
  | .finIn => again 6
  | .finArr | .finSleep => 6 + wArr N
  | .fin => 7 + wArr N
  | .epoch r => if th.valid ≤ th.off then 8 + wArr N + (wArr N + 1) * r else wFetch N + 5 + (wArr N + 1) * r
  | .epochIn r => if th.valid ≤ th.off then 9 + wArr N + (wArr N + 1) * r else wFetch N + 6 + (wArr N + 1) * r
  | .fetch => wFetch N
  | .enter => wFetch N + 1
  | .inCall _ => wFetch N + 1
  | .deliver _ => wFetch N + 2
  | .failed => wFetch N + 3
  | .handle => wFetch N + 4

def BWait.rank : BWait → Nat
  | .awake _ => 1
  | _ => 0

/-- The sum over the threads. -/
def CS.sum (s : CS N) : Nat := ∑ t, ((s.thr t).rank N s.quit s.trig + (s.bar.wt t).rank)

/-- The leader has not yet reset the stream. -/
def CPc.mid : CPc → Bool
  | .top | .trig | .trigSleep | .callback _ | .inCallback | .done => false
  | _ => true

def CS.unreset (s : CS N) : Prop :=
  s.quit = false ∧ ∃ t, isLead t = true ∧ ((s.thr t).lastTrig ≠ s.trig ∨ (s.thr t).pc.mid = true)

open Classical in
noncomputable def CS.meas (s : CS N) : Nat × Nat :=
  (if s.unreset then 1 else 0, wBlock N * (bigOffset - s.cur) + s.sum)

theorem sum_lt {f g : Fin N → Nat} {t : Fin N} {d : Nat} (ht : f t + d < g t) (hd : N ≤ d ∨ ∀ u, u ≠ t → f u ≤ g u)
    (h1 : ∀ u, u ≠ t → f u ≤ g u + 1) : ∑ u, f u < ∑ u, g u := by
  have e1 : ∑ u, f u = f t + ∑ u ∈ Finset.univ.erase t, f u := (Finset.add_sum_erase _ _ (Finset.mem_univ t)).symm
  have e2 : ∑ u, g u = g t + ∑ u ∈ Finset.univ.erase t, g u := (Finset.add_sum_erase _ _ (Finset.mem_univ t)).symm
  rcases hd with hd | hd
  · have h2 : ∑ u ∈ Finset.univ.erase t, f u ≤ ∑ u ∈ Finset.univ.erase t, (g u + 1) :=
      Finset.sum_le_sum fun u hu => h1 u (Finset.ne_of_mem_erase hu)
    rw [Finset.sum_add_distrib, Finset.sum_const, Finset.card_erase_of_mem (Finset.mem_univ t), Finset.card_univ,
      Fintype.card_fin] at h2
    simp only [smul_eq_mul, mul_one] at h2
    omega
  · have h2 : ∑ u ∈ Finset.univ.erase t, f u ≤ ∑ u ∈ Finset.univ.erase t, g u :=
      Finset.sum_le_sum fun u hu => hd u (Finset.ne_of_mem_erase hu)
    omega

theorem sum_le_add {f g : Fin N → Nat} {t : Fin N} {d : Nat} (ht : f t ≤ g t + d)
    (h1 : ∀ u, u ≠ t → f u ≤ g u) : ∑ u, f u ≤ ∑ u, g u + d := by
  have e1 : ∑ u, f u = f t + ∑ u ∈ Finset.univ.erase t, f u := (Finset.add_sum_erase _ _ (Finset.mem_univ t)).symm
  have e2 : ∑ u, g u = g t + ∑ u ∈ Finset.univ.erase t, g u := (Finset.add_sum_erase _ _ (Finset.mem_univ t)).symm
  have h2 : ∑ u ∈ Finset.univ.erase t, f u ≤ ∑ u ∈ Finset.univ.erase t, g u :=
    Finset.sum_le_sum fun u hu => h1 u (Finset.ne_of_mem_erase hu)
  omega

theorem lex_of {s s' : CS N} (hz : s'.unreset → s.unreset)
    (hm : wBlock N * (bigOffset - s'.cur) + s'.sum < wBlock N * (bigOffset - s.cur) + s.sum) :
    Prod.Lex (· < ·) (· < ·) s'.meas s.meas := by
  unfold CS.meas
  by_cases h : s.unreset
  · by_cases h' : s'.unreset
    · rw [if_pos h, if_pos h']; exact .right _ hm
    · rw [if_pos h, if_neg h']; exact .left _ _ (by decide)
  · rw [if_neg h, if_neg (fun hx => h (hz hx))]; exact .right _ hm

/-- Steps that change one thread, and perhaps the trace and the error flag. -/
theorem lex_local {s s' : CS N} {t : Fin N} {th : CThr} (hthr : s'.thr = Function.update s.thr t th)
    (hq : s'.quit = s.quit) (htr : s'.trig = s.trig) (hbar : s'.bar = s.bar) (hcur : s.cur ≤ s'.cur ∨ bigOffset ≤ s'.cur)
    (hz : s.quit = false → th.lastTrig ≠ s.trig ∨ th.pc.mid = true → (s.thr t).lastTrig ≠ s.trig ∨ (s.thr t).pc.mid = true)
    (hr : th.rank N s.quit s.trig < (s.thr t).rank N s.quit s.trig) :
    Prod.Lex (· < ·) (· < ·) s'.meas s.meas := by
  apply lex_of
  · rintro ⟨h1, u, h2, h3⟩
    rw [hq] at h1
    rw [hthr, htr] at h3
    refine ⟨h1, u, h2, ?_⟩
    by_cases hu : u = t
    · subst hu
      rw [Function.update_self] at h3
      exact hz h1 h3
    · rw [Function.update_of_ne hu] at h3
      exact h3
  · have h1 : s'.sum < s.sum := by
      unfold CS.sum
      rw [hthr, hq, htr, hbar]
      apply sum_lt (t := t) (d := 0)
      · rw [Function.update_self]; omega
      · right
        intro u hu
        rw [Function.update_of_ne hu]
      · intro u hu
        rw [Function.update_of_ne hu]
        omega
    have h2 : wBlock N * (bigOffset - s'.cur) ≤ wBlock N * (bigOffset - s.cur) :=
      Nat.mul_le_mul_left _ (by omega)
    omega

theorem arrive_wt (b : Bar N) (t u : Fin N) :
    ((b.arrive t).wt u).rank ≤ (b.wt u).rank + 1 := by
  have : ∀ w : BWait, w.rank ≤ 1 := by intro w; cases w <;> simp [BWait.rank]
  have := this ((b.arrive t).wt u)
  omega

theorem arrive_wt_self {b : Bar N} {t : Fin N} (h : b.wt t = .out) : ((b.arrive t).wt t).rank = 0 := by
  unfold Bar.arrive
  split
  · show (b.wt t).wake.rank = 0
    rw [h]; rfl
  · split
    · rw [h]; rfl
    · show (Function.update b.wt t _ t).rank = 0
      rw [Function.update_self]; rfl

/-- Calls of the barrier. -/
theorem lex_arrive {s : CS N} {t : Fin N} {pc : CPc} (hw : s.bar.wt t = .out)
    (hz : (s.thr t).pc.mid = true)
    (hr : ({ s.thr t with pc := pc } : CThr).rank N s.quit s.trig + N < (s.thr t).rank N s.quit s.trig) :
    Prod.Lex (· < ·) (· < ·) ({ s with bar := s.bar.arrive t }.setPc t pc).meas s.meas := by
  apply lex_of
  · rintro ⟨h1, u, h2, h3⟩
    refine ⟨h1, u, h2, ?_⟩
    by_cases hu : u = t
    · subst hu; exact .inr hz
    · rw [CS.setPc, thr_ne _ _ hu] at h3; exact h3
  · have h1 : ({ s with bar := s.bar.arrive t }.setPc t pc).sum < s.sum := by
      unfold CS.sum
      apply sum_lt (t := t) (d := N)
      · rw [CS.setPc, thr_self]
        show ({ s.thr t with pc := pc } : CThr).rank N s.quit s.trig + ((s.bar.arrive t).wt t).rank + N < _
        rw [arrive_wt_self hw]
        exact Nat.lt_of_lt_of_le hr (Nat.le_add_right _ _)
      · exact .inl (Nat.le_refl _)
      · intro u hu
        rw [CS.setPc, thr_ne _ _ hu]
        have := arrive_wt s.bar t u
        show (s.thr u).rank N s.quit s.trig + ((s.bar.arrive t).wt u).rank ≤ _
        omega
    show wBlock N * (bigOffset - s.cur) + _ < _
    omega

section
variable {k : Option Nat} {s : CS N} {arr : Fin N → Nat} {G base next : Nat} {run : Bool} {t : Fin N}

theorem numEpochs_le (k : Option Nat) (o n l : Nat) : numEpochs k o n l ≤ n := by
  rw [numEpochs_eq]
  have : epochOf k (min o n) ≤ min o n := by
    unfold epochOf
    split
    · exact Nat.zero_le _
    · exact Nat.div_le_self _ _
  omega

theorem lex_fetch (h : CInv k s arr G base next run) (hpc : (s.thr t).pc = .fetch) :
    Prod.Lex (· < ·) (· < ·) ({ s with cur := s.cur + blockSize }.setThr t { s.thr t with
        pc := .epoch (numEpochs k s.cur s.size (s.thr t).lastOff), off := s.cur }).meas s.meas := by
  have hB : 0 < blockSize := by decide
  have hn : numEpochs k s.cur s.size (s.thr t).lastOff ≤ bigOffset := by
    have h1 := numEpochs_le k s.cur s.size (s.thr t).lastOff
    have h2 := h.b.sz
    have h3 := h.b.osz
    omega
  have hm : (wArr N + 1) * numEpochs k s.cur s.size (s.thr t).lastOff ≤ (wArr N + 1) * bigOffset :=
    Nat.mul_le_mul_left _ hn
  by_cases hbig : bigOffset ≤ s.cur
  · refine lex_local (t := t) rfl rfl rfl rfl ?_ ?_ ?_
    · left
      show s.cur ≤ s.cur + blockSize
      omega
    · intro _ _
      right; rw [hpc]; rfl
    · have hval := h.b.val t
      simp only [CThr.rank, hpc]
      rw [if_pos (by omega)]
      unfold wFetch
      omega
  · apply lex_of
    · rintro ⟨h1, u, h2, h3⟩
      refine ⟨h1, u, h2, ?_⟩
      by_cases hu : u = t
      · subst hu; right; rw [hpc]; rfl
      · rw [thr_ne _ _ hu] at h3; exact h3
    · have h1 : ({ s with cur := s.cur + blockSize }.setThr t { s.thr t with
          pc := .epoch (numEpochs k s.cur s.size (s.thr t).lastOff), off := s.cur }).sum ≤
          s.sum + (5 + (wArr N + 1) * bigOffset) := by
        unfold CS.sum
        apply sum_le_add (t := t)
        · rw [thr_self]
          show CThr.rank N s.quit s.trig _ + (s.bar.wt t).rank ≤ _
          simp only [CThr.rank, hpc]
          split
          · unfold wFetch; omega
          · omega
        · intro u hu
          rw [thr_ne _ _ hu]
          exact Nat.le_refl _
      have h2 : wBlock N * (bigOffset - (s.cur + blockSize)) + wBlock N ≤ wBlock N * (bigOffset - s.cur) := by
        rw [← Nat.mul_succ]
        exact Nat.mul_le_mul_left _ (by omega)
      show wBlock N * (bigOffset - (s.cur + blockSize)) + _ < _
      have h3 : wBlock N = 6 + (wArr N + 1) * bigOffset := rfl
      omega

theorem lex_recheck {g : BitVec 32} (hw : s.bar.wt t = .awake g) :
    Prod.Lex (· < ·) (· < ·) ({ s with bar := s.bar.recheck t g } : CS N).meas s.meas := by
  apply lex_of
  · exact fun hx => hx
  · have hself : ((s.bar.recheck t g).wt t).rank = 0 := by
      unfold Bar.recheck
      split <;> (show (Function.update s.bar.wt t _ t).rank = 0; rw [Function.update_self]; rfl)
    have hne : ∀ u, u ≠ t → (s.bar.recheck t g).wt u = s.bar.wt u := by
      intro u hu
      unfold Bar.recheck
      split <;> (show Function.update s.bar.wt t _ u = _; rw [Function.update_of_ne hu])
    have h1 : ({ s with bar := s.bar.recheck t g } : CS N).sum < s.sum := by
      unfold CS.sum
      apply sum_lt (t := t) (d := 0)
      · show (s.thr t).rank N s.quit s.trig + ((s.bar.recheck t g).wt t).rank + 0 < _
        rw [hself, hw]
        show _ < _ + 1
        omega
      · right
        intro u hu
        show (s.thr u).rank N s.quit s.trig + ((s.bar.recheck t g).wt u).rank ≤ _
        rw [hne u hu]
      · intro u hu
        show (s.thr u).rank N s.quit s.trig + ((s.bar.recheck t g).wt u).rank ≤ _
        rw [hne u hu]
        omega
    show wBlock N * (bigOffset - s.cur) + _ < _
    omega

theorem work_lex (h : CInv k s arr G base next run) {s' : CS N} (hs : CWork k t s s') :
    Prod.Lex (· < ·) (· < ·) s'.meas s.meas := by
  have hF : wFetch N = 9 + wArr N + (wArr N + 1) * bigOffset := rfl
  have hA : wArr N = N + 1 := rfl
  cases hs with
  | topQuit hp hq =>
    refine lex_local (t := t) rfl rfl rfl rfl (.inl (Nat.le_refl _)) ?_ ?_
    · intro hx; rw [hq] at hx; cases hx
    · simp [CThr.rank, hp, hq]
  | topGo hp hq =>
    refine lex_local (t := t) rfl rfl rfl rfl (.inl (Nat.le_refl _)) ?_ ?_
    · intro _ hx
      rcases hx with hx | hx
      · exact .inl hx
      · cases hx
    · by_cases hc : (s.thr t).lastTrig = s.trig
      · simp [CThr.rank, hp, hq, hc]
      · simp [CThr.rank, hp, hq, hc]
  | trigGo hp hq =>
    refine lex_local (t := t) rfl rfl rfl rfl (.inl (Nat.le_refl _)) ?_ ?_
    · intro hx _
      left
      rcases hq with hq | hq
      · exact fun he => hq he.symm
      · rw [hx] at hq; cases hq
    · have : (s.thr t).lastTrig ≠ s.trig ∨ s.quit = true := by
        rcases hq with hq | hq
        · exact .inl fun he => hq he.symm
        · exact .inr hq
      simp only [CThr.rank, hp]
      rw [if_pos this]
      omega
  | trigWait hp hq =>
    refine lex_local (t := t) rfl rfl rfl rfl (.inl (Nat.le_refl _)) ?_ ?_
    · intro _ hx
      rcases hx with hx | hx
      · exact .inl hx
      · cases hx
    · simp only [CThr.rank, hp]
      split <;> omega
  | enter hp =>
    refine lex_local (t := t) rfl rfl rfl rfl (.inl (Nat.le_refl _)) ?_ ?_
    · intro _ _; right; rw [hp]; rfl
    · simp only [CThr.rank, hp]; omega
  | fetch hp => exact lex_fetch h hp
  | @epochArrive r hp =>
    apply lex_arrive
    · exact h.out (by rw [hp]; rfl)
    · rw [hp]; rfl
    · simp only [CThr.rank, hp]
      have : (wArr N + 1) * (r + 1) = (wArr N + 1) * r + (wArr N + 1) := Nat.mul_succ _ _
      split <;> omega
  | @epochOut r hp hw =>
    refine lex_local (t := t) rfl rfl rfl rfl (.inl (Nat.le_refl _)) ?_ ?_
    · intro _ _; right; rw [hp]; rfl
    · simp only [CThr.rank, hp]
      split <;> omega
  | recheck hw => exact lex_recheck hw
  | epochEnd hp =>
    refine lex_local (t := t) rfl rfl rfl rfl (.inl (Nat.le_refl _)) ?_ ?_
    · intro _ _; right; rw [hp]; rfl
    · by_cases hc : (s.thr t).valid ≤ (s.thr t).off
      · simp only [if_pos hc]
        simp only [CThr.rank, hp, if_pos hc]
        omega
      · simp only [if_neg hc]
        simp only [CThr.rank, hp, if_neg hc]
        omega
  | handleOk hp =>
    refine lex_local (t := t) rfl rfl rfl rfl (.inl (Nat.le_refl _)) ?_ ?_
    · intro _ _; right; rw [hp]; rfl
    · simp only [CThr.rank, hp]; omega
  | handleFail hp =>
    refine lex_local (t := t) rfl rfl rfl rfl (.inl (Nat.le_refl _)) ?_ ?_
    · intro _ _; right; rw [hp]; rfl
    · simp only [CThr.rank, hp]; omega
  | failed hp =>
    refine lex_local (t := t) rfl rfl rfl rfl (.inr (Nat.le_refl _)) ?_ ?_
    · intro _ _; right; rw [hp]; rfl
    · simp only [CThr.rank, hp]; omega
  | deliver hp =>
    refine lex_local (t := t) rfl rfl rfl rfl (.inl (Nat.le_refl _)) ?_ ?_
    · intro _ _; right; rw [hp]; rfl
    · simp only [CThr.rank, hp]; omega
  | callDone hp =>
    refine lex_local (t := t) rfl rfl rfl rfl (.inl (Nat.le_refl _)) ?_ ?_
    · intro _ _; right; rw [hp]; rfl
    · simp only [CThr.rank, hp]; omega
  | finGo hp hq =>
    refine lex_local (t := t) rfl rfl rfl rfl (.inl (Nat.le_refl _)) ?_ ?_
    · intro _ _; right; rw [hp]; rfl
    · simp only [CThr.rank, hp]; omega
  | finWait hp hq =>
    refine lex_local (t := t) rfl rfl rfl rfl (.inl (Nat.le_refl _)) ?_ ?_
    · intro _ _; right; rw [hp]; rfl
    · simp only [CThr.rank, hp]; omega
  | finArrive hp =>
    apply lex_arrive
    · exact h.out (by rw [hp]; rfl)
    · rw [hp]; rfl
    · have : ¬ ((s.thr t).lastTrig ≠ s.trig ∧ s.quit = false) := by
        rintro ⟨h1, h2⟩
        have hT := (h.n h2).thr t
        simp only [TInv, hp] at hT
        exact h1 hT.1
      simp only [CThr.rank, hp]
      rw [if_neg this]
      omega
  | finOut hp hw =>
    refine lex_local (t := t) rfl rfl rfl rfl (.inl (Nat.le_refl _)) ?_ ?_
    · intro _ _; right; rw [hp]; rfl
    · by_cases h0 : t.val = 0
      · simp only [if_pos h0]
        simp only [CThr.rank, hp]
        split <;> omega
      · simp only [if_neg h0]
        simp only [CThr.rank, hp]
        split <;> omega
  | resetQuit hp hq =>
    refine lex_local (t := t) rfl rfl rfl rfl (.inl (Nat.le_refl _)) ?_ ?_
    · intro hx; rw [hq] at hx; cases hx
    · simp only [CThr.rank, hp]
      split <;> omega
  | reset hp hq =>
    -- the leader leaves the operation
    have hT := (h.n hq).thr t
    simp only [TInv, hp] at hT
    obtain ⟨l1, l2, _⟩ := hT
    have hu : s.unreset := ⟨hq, t, l1, .inr (by rw [hp]; rfl)⟩
    have hu' : ¬ ({ s with size := 0, cur := 0, error := false, finalizing := false }.setPc t
        (.callback (!s.error))).unreset := by
      rintro ⟨_, u, h2, h3⟩
      have := isLead_inj h2 l1
      subst this
      rw [CS.setPc, thr_self] at h3
      rcases h3 with h3 | h3
      · exact h3 l2
      · cases h3
    unfold CS.meas
    rw [if_pos hu, if_neg hu']
    exact .left _ _ (by decide)
  | callback hp =>
    refine lex_local (t := t) rfl rfl rfl rfl (.inl (Nat.le_refl _)) ?_ ?_
    · intro _ hx
      rcases hx with hx | hx
      · exact .inl hx
      · cases hx
    · simp only [CThr.rank, hp]
      split <;> omega
  | callbackDone hp =>
    refine lex_local (t := t) rfl rfl rfl rfl (.inl (Nat.le_refl _)) ?_ ?_
    · intro _ hx
      rcases hx with hx | hx
      · exact .inl hx
      · cases hx
    · simp only [CThr.rank, hp]
      split <;> omega

end

theorem work_acc {k : Option Nat} (hk : EpochSetting k) (s : CS N) (h : CReach k s) :
    Acc (fun s' s => ∃ t, CWork k t s s') s := by
  have wf : WellFounded (Prod.Lex (fun a b : Nat => a < b) (fun a b : Nat => a < b)) :=
    (Prod.lex Nat.lt_wfRel Nat.lt_wfRel).wf
  have main : ∀ m : Nat × Nat, ∀ s : CS N, CReach k s → s.meas = m →
      Acc (fun s' s => ∃ t, CWork k t s s') s := by
    intro m
    induction m using wf.induction with
    | _ m ih =>
      intro s hs hm
      refine Acc.intro _ ?_
      rintro s' ⟨t, hw⟩
      obtain ⟨arr, G, base, next, run, hi⟩ := creach_inv hk hs
      have := work_lex hi hw
      exact ih _ (by rw [← hm]; exact this) s' (.work hs hw) rfl
  exact main _ s h rfl

/-! ## Bound of the offset -/

/-- The thread may fetch another offset in this operation. -/
def CThr.mayFetch (quit : Bool) (trig : BitVec 32) (th : CThr) : Bool :=
  (!quit && decide (th.lastTrig ≠ trig)) ||
  match th.pc with
  | .trig => quit
  | .enter | .fetch | .handle | .failed | .deliver _ | .inCall _ => true
  | .epoch _ | .epochIn _ => decide (th.off < th.valid)
  | _ => false

def CS.past (s : CS N) : Nat := (Finset.univ.filter fun t => (s.thr t).mayFetch s.quit s.trig = false).card

theorem past_le (s : CS N) : s.past ≤ N := by
  unfold CS.past
  have := Finset.card_le_univ (Finset.univ.filter fun t => (s.thr t).mayFetch s.quit s.trig = false)
  rwa [Fintype.card_fin] at this

theorem past_mono {s s' : CS N} (h : ∀ t, (s.thr t).mayFetch s.quit s.trig = false →
    (s'.thr t).mayFetch s'.quit s'.trig = false) : s.past ≤ s'.past := by
  apply Finset.card_le_card
  intro t ht
  simp only [Finset.mem_filter, Finset.mem_univ, true_and] at ht ⊢
  exact h t ht

theorem past_local {s : CS N} {t : Fin N} {th : CThr} {s' : CS N} (hthr : s'.thr = Function.update s.thr t th)
    (hq : s'.quit = s.quit) (htr : s'.trig = s.trig)
    (h : (s.thr t).mayFetch s.quit s.trig = false → th.mayFetch s.quit s.trig = false) : s.past ≤ s'.past := by
  apply past_mono
  intro u hu
  rw [hthr, hq, htr]
  by_cases hut : u = t
  · subst hut; rw [Function.update_self]; exact h hu
  · rw [Function.update_of_ne hut]; exact hu

theorem offset_bound {k : Option Nat} (hk : EpochSetting k) {s : CS N} (h : CReach k s) :
    s.cur ≤ bigOffset + blockSize * s.past := by
  induction h with
  | init => exact Nat.zero_le _
  | @work s s' t hr hs ih =>
    obtain ⟨arr, G, base, next, run, hi⟩ := creach_inv hk hr
    have loc : ∀ {th : CThr} {s' : CS N}, s'.cur = s.cur → s'.thr = Function.update s.thr t th →
        s'.quit = s.quit → s'.trig = s.trig →
        ((s.thr t).mayFetch s.quit s.trig = false → th.mayFetch s.quit s.trig = false) →
        s'.cur ≤ bigOffset + blockSize * s'.past := by
      intro th s' h1 h2 h3 h4 h5
      have := Nat.mul_le_mul_left blockSize (past_local h2 h3 h4 h5)
      omega
    cases hs with
    | topQuit hp hq => exact loc rfl rfl rfl rfl (by simp [CThr.mayFetch, hp])
    | topGo hp hq => exact loc rfl rfl rfl rfl (by simp [CThr.mayFetch, hp, hq])
    | trigGo hp hq =>
      refine loc rfl rfl rfl rfl ?_
      intro hx
      exfalso
      simp only [CThr.mayFetch, hp, Bool.or_eq_false_iff] at hx
      rcases hq with hq | hq
      · have hne : (s.thr t).lastTrig ≠ s.trig := fun he => hq he.symm
        simp [hx.2, hne] at hx
      · rw [hq] at hx; cases hx.2
    | trigWait hp hq => exact loc rfl rfl rfl rfl (by simp [CThr.mayFetch, hp])
    | enter hp => exact loc rfl rfl rfl rfl (by simp [CThr.mayFetch, hp])
    | fetch hp =>
      by_cases hb : s.cur < bigOffset
      · have hrun : run = true := by
          have hq : s.quit = false := by
            cases hq : s.quit with
            | false => rfl
            | true => exact absurd (hi.q hq).cur (by omega)
          have hT := (hi.n hq).thr t
          simp only [TInv, hp] at hT
          exact hT.2.1
        have h1 := hi.b.nextCur hrun hb
        have h2 := hi.b.nextMod
        rw [h1] at h2
        have h3 := big_mod
        show s.cur + blockSize ≤ bigOffset + _
        have : s.cur + blockSize ≤ bigOffset := by
          unfold blockSize bigOffset at *
          omega
        omega
      · -- the thread does not come back
        have hlt : s.past + 1 ≤ ({ s with cur := s.cur + blockSize }.setThr t { s.thr t with
            pc := .epoch (numEpochs k s.cur s.size (s.thr t).lastOff), off := s.cur }).past := by
          unfold CS.past
          rw [← Finset.card_insert_of_notMem (a := t) (by simp [CThr.mayFetch, hp])]
          apply Finset.card_le_card
          intro u hu
          simp only [Finset.mem_filter, Finset.mem_univ, true_and, Finset.mem_insert] at hu ⊢
          by_cases hut : u = t
          · subst hut
            rw [thr_self]
            have hv := hi.b.val u
            show CThr.mayFetch s.quit s.trig _ = false
            have hlt : (s.thr u).lastTrig = s.trig ∨ s.quit = true := by
              cases hq : s.quit with
              | true => exact .inr rfl
              | false =>
                left
                have hT := (hi.n hq).thr u
                simp only [TInv, hp] at hT
                exact hT.1
            simp only [CThr.mayFetch, Bool.or_eq_false_iff, decide_eq_false_iff_not]
            refine ⟨?_, by omega⟩
            rcases hlt with h1 | h1 <;> simp [h1]
          · rw [thr_ne _ _ hut]
            rcases hu with hu | hu
            · exact absurd hu hut
            · exact hu
        have := Nat.mul_le_mul_left blockSize hlt
        rw [Nat.mul_succ] at this
        show s.cur + blockSize ≤ _
        omega
    | epochArrive hp => exact loc rfl rfl rfl rfl (by simp [CThr.mayFetch, hp])
    | epochOut hp hw => exact loc rfl rfl rfl rfl (by simp [CThr.mayFetch, hp])
    | @recheck g hw =>
      have : s.past ≤ ({ s with bar := s.bar.recheck t g } : CS N).past := past_mono fun _ hx => hx
      have := Nat.mul_le_mul_left blockSize this
      show s.cur ≤ _
      omega
    | epochEnd hp =>
      refine loc rfl rfl rfl rfl ?_
      intro hx
      by_cases hc : (s.thr t).valid ≤ (s.thr t).off
      · simp only [if_pos hc]
        simp_all [CThr.mayFetch]
      · exfalso
        simp only [CThr.mayFetch, hp, Bool.or_eq_false_iff, decide_eq_false_iff_not] at hx
        omega
    | handleOk hp => exact loc rfl rfl rfl rfl (by simp [CThr.mayFetch, hp])
    | handleFail hp => exact loc rfl rfl rfl rfl (by simp [CThr.mayFetch, hp])
    | failed hp => exact Nat.le_add_right _ _
    | deliver hp => exact loc rfl rfl rfl rfl (by simp [CThr.mayFetch, hp])
    | callDone hp => exact loc rfl rfl rfl rfl (by simp [CThr.mayFetch, hp])
    | finGo hp hq => exact loc rfl rfl rfl rfl (by simp [CThr.mayFetch, hp])
    | finWait hp hq => exact loc rfl rfl rfl rfl (by simp [CThr.mayFetch, hp])
    | finArrive hp => exact loc rfl rfl rfl rfl (by simp [CThr.mayFetch, hp])
    | finOut hp hw =>
      refine loc rfl rfl rfl rfl ?_
      split <;> simp [CThr.mayFetch, hp]
    | resetQuit hp hq => exact loc rfl rfl rfl rfl (by simp [CThr.mayFetch, hp])
    | reset hp hq => exact Nat.zero_le _
    | callback hp => exact loc rfl rfl rfl rfl (by simp [CThr.mayFetch, hp])
    | callbackDone hp => exact loc rfl rfl rfl rfl (by simp [CThr.mayFetch, hp])
  | @user s s' hr hs ih =>
    obtain ⟨arr, G, base, next, run, hi⟩ := creach_inv hk hr
    cases hs with
    | start hq hm hsz =>
      have h0 := inv_start hi hq hm hsz
      have : (0 : Nat) = s.cur ∨ bigOffset ≤ s.cur := by
        by_cases hb : s.cur < bigOffset
        · exact .inl (h0.b.nextCur rfl hb)
        · exact .inr (by omega)
      rcases this with h1 | h1
      · show s.cur ≤ _
        omega
      · -- not possible: the offset is 0 between operations
        have hN := hi.n hq
        have hrf : run = false := by
          cases hr : run with
          | false => rfl
          | true =>
            obtain ⟨_, r2, r3, _⟩ := hN.runT hr
            rcases hm with h1 | ⟨ok, h1⟩
            · rw [r2] at h1; cases h1
            · exact absurd h1 (r3 ok)
        have := (hN.runF hrf).2.1
        rw [this] at h1
        exact absurd h1 (by decide)
    | @finalize cancel hq hm =>
      cases cancel with
      | true => exact Nat.le_add_right _ _
      | false =>
        have key : ∀ s' : CS N, s'.cur = s.cur → s.past ≤ s'.past →
            s'.cur ≤ bigOffset + blockSize * s'.past := by
          intro s' h1 h2
          have := Nat.mul_le_mul_left blockSize h2
          omega
        refine key _ rfl ?_
        · apply past_mono
          intro u hx
          show (s.thr u).wake.mayFetch s.quit s.trig = false
          unfold CThr.wake
          split
          · rename_i hp
            simp only [CThr.mayFetch, hp] at hx ⊢
            simp [hq] at hx ⊢
            exact hx
          · rename_i hp
            simp only [CThr.mayFetch, hp] at hx ⊢
            exact hx
          · exact hx
    | destroy hq => exact Nat.le_add_right _ _
  | @spurious s s' hr hs ih =>
    have key : s'.cur = s.cur → s.past ≤ s'.past → s'.cur ≤ bigOffset + blockSize * s'.past := by
      intro h1 h2
      have := Nat.mul_le_mul_left blockSize h2
      omega
    obtain ⟨arr, G, base, next, run, hi⟩ := creach_inv hk hr
    cases hs with
    | @cv t hp =>
      have hq : s.quit = false := by
        cases hq : s.quit with
        | false => rfl
        | true =>
          have := (hi.q hq).sleep t
          rcases hp with hp | hp <;> rw [hp] at this <;> cases this
      refine key rfl (past_local (t := t) rfl rfl rfl ?_)
      intro hx
      rcases hp with hp | hp
      · simp only [CThr.wake, hp]
        simp only [CThr.mayFetch, hp] at hx ⊢
        simp [hq] at hx ⊢
        exact hx
      · simp only [CThr.wake, hp]
        simp only [CThr.mayFetch, hp] at hx ⊢
        exact hx
    | bar hw => exact key rfl (past_mono fun _ hx => hx)

end Lib842
