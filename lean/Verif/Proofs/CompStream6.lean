import Verif.Proofs.CompStream5
/-!
# The compression stream: facts about traces, and an executable step
-/

namespace Lib842
open Spec

/-! ## Traces -/

theorem traceOk_append {k : Option Nat} {l2 l1 : List Ev} (h : TraceOk k (l2 ++ l1)) : TraceOk k l1 := by
  induction l2 with
  | nil => exact h
  | cons e l2 ih => exact ih h.2

theorem trace_offsets {k : Option Nat} {tr : List Ev} (h : TraceOk k tr) :
    (offsets (curOp tr)).Nodup ∧ ∀ o ∈ offsets (curOp tr), o % blockSize = 0 ∧ o + blockSize ≤ opSize tr := by
  induction tr with
  | nil => exact ⟨List.nodup_nil, by intro o ho; cases ho⟩
  | cons e tr ih =>
    obtain ⟨h1, h2⟩ := ih h.2
    have he := h.1
    cases e with
    | start n => rw [curOp_start]; exact ⟨List.nodup_nil, by intro o ho; cases ho⟩
    | block o =>
      rw [curOp_cons rfl]
      obtain ⟨_, e2, e3, e4, _⟩ := he
      refine ⟨List.nodup_cons.2 ⟨e4, h1⟩, fun o' ho => ?_⟩
      rcases List.mem_cons.1 ho with rfl | ho
      · exact ⟨e2, e3⟩
      · exact h2 o' ho
    | failBlock o =>
      rw [curOp_cons rfl]
      obtain ⟨_, e2, e3, e4, _⟩ := he
      refine ⟨List.nodup_cons.2 ⟨e4, h1⟩, fun o' ho => ?_⟩
      rcases List.mem_cons.1 ho with rfl | ho
      · exact ⟨e2, e3⟩
      · exact h2 o' ho
    | finalize c => rw [curOp_cons rfl]; exact ⟨h1, h2⟩
    | destroy => rw [curOp_cons rfl]; exact ⟨h1, h2⟩
    | returned o => rw [curOp_cons rfl]; exact ⟨h1, h2⟩
    | finalized ok => rw [curOp_cons rfl]; exact ⟨h1, h2⟩

/-- What holds once the finalize callback has been called. -/
theorem trace_finalized {k : Option Nat} {tr : List Ev} (h : TraceOk k tr) {ok : Bool}
    (hf : .finalized ok ∈ curOp tr) :
    (∃ c, .finalize c ∈ curOp tr) ∧ (∀ o ∈ offsets (curOp tr), .returned o ∈ curOp tr) ∧
    (ok = false ↔ ∃ o, .failBlock o ∈ curOp tr) ∧
    (ok = true → .finalize true ∉ curOp tr →
      ∀ o, o % blockSize = 0 → o + blockSize ≤ opSize tr → o ∈ offsets (curOp tr)) ∧
    (∀ ok', .finalized ok' ∈ curOp tr → ok' = ok) ∧ (curOp tr).count (.finalized ok) = 1 := by
  induction tr with
  | nil => cases hf
  | cons e tr ih =>
    have he := h.1
    have old : e.isStart = false → .finalized ok ∈ curOp tr → (∀ o, e ≠ .failBlock o) → (∀ ok, e ≠ .finalized ok) →
        offsets (curOp (e :: tr)) = offsets (curOp tr) →
        (∃ c, .finalize c ∈ curOp (e :: tr)) ∧ (∀ o ∈ offsets (curOp (e :: tr)), .returned o ∈ curOp (e :: tr)) ∧
        (ok = false ↔ ∃ o, .failBlock o ∈ curOp (e :: tr)) ∧
        (ok = true → .finalize true ∉ curOp (e :: tr) →
          ∀ o, o % blockSize = 0 → o + blockSize ≤ opSize (e :: tr) → o ∈ offsets (curOp (e :: tr))) ∧
        (∀ ok', .finalized ok' ∈ curOp (e :: tr) → ok' = ok) ∧ (curOp (e :: tr)).count (.finalized ok) = 1 := by
      intro hs hm hnf hnz ho
      obtain ⟨⟨c, i1⟩, i2, i3, i4, i5, i6⟩ := ih h.2 hm
      rw [ho, opSize_cons hs, curOp_cons hs]
      refine ⟨⟨c, List.mem_cons_of_mem _ i1⟩, fun o ho => List.mem_cons_of_mem _ (i2 o ho), ?_, ?_, ?_, ?_⟩
      · rw [i3]
        refine exists_congr fun o => ?_
        simp only [List.mem_cons]
        exact ⟨.inr, fun hx => hx.resolve_left fun he => hnf o he.symm⟩
      · intro h1 h2
        exact i4 h1 fun hx => h2 (List.mem_cons_of_mem _ hx)
      · intro ok' hx
        rcases List.mem_cons.1 hx with hx | hx
        · exact absurd hx.symm (hnz ok')
        · exact i5 ok' hx
      · rw [List.count_cons_of_ne (hnz ok)]; exact i6
    cases e with
    | start n => rw [curOp_start] at hf; cases hf
    | block o =>
      rw [curOp_cons rfl] at hf
      simp only [List.mem_cons, reduceCtorEq, false_or] at hf
      exact absurd hf (he.1 ok)
    | failBlock o =>
      rw [curOp_cons rfl] at hf
      simp only [List.mem_cons, reduceCtorEq, false_or] at hf
      exact absurd hf (he.1 ok)
    | finalize c =>
      rw [curOp_cons rfl] at hf
      simp only [List.mem_cons, reduceCtorEq, false_or] at hf
      exact old rfl hf (by simp) (by simp) (by rw [curOp_cons rfl]; rfl)
    | destroy =>
      rw [curOp_cons rfl] at hf
      simp only [List.mem_cons, reduceCtorEq, false_or] at hf
      exact old rfl hf (by simp) (by simp) (by rw [curOp_cons rfl]; rfl)
    | returned o =>
      rw [curOp_cons rfl] at hf
      simp only [List.mem_cons, reduceCtorEq, false_or] at hf
      exact absurd hf (he.2 ok)
    | finalized ok' =>
      rw [curOp_cons rfl] at hf
      obtain ⟨⟨c, e1⟩, e2, e3, e4, e5⟩ := he
      rcases List.mem_cons.1 hf with hx | hx
      · cases hx
        have ho : offsets (curOp (.finalized ok :: tr)) = offsets (curOp tr) := by rw [curOp_cons rfl]; rfl
        rw [ho, opSize_cons rfl, curOp_cons rfl]
        refine ⟨⟨c, List.mem_cons_of_mem _ e1⟩, fun o ho => List.mem_cons_of_mem _ (e3 o ho), ?_, ?_, ?_, ?_⟩
        · rw [e4]
          exact exists_congr fun o => by simp
        · intro h1 h2
          exact e5 h1 fun hx => h2 (List.mem_cons_of_mem _ hx)
        · intro ok' hx
          rcases List.mem_cons.1 hx with hx | hx
          · cases hx; rfl
          · exact absurd hx (e2 ok')
        · rw [List.count_cons_self, List.count_eq_zero.2 (e2 ok)]
      · exact absurd hx (e2 ok)

/-! ## The trace of an execution -/

variable {N : Nat}

/-- A step leaves the trace or adds one event; `quit` is set by `destroy`. -/
theorem work_log {k : Option Nat} {t : Fin N} {s s' : CS N} (h : CWork k t s s') :
    s'.quit = s.quit ∧ (s'.log = s.log ∨ ∃ e, s'.log = e :: s.log ∧ e.isStart = false ∧ e ≠ .destroy ∧
      ∀ c, e ≠ .finalize c) := by
  cases h
  case deliver ok _ => exact ⟨rfl, .inr ⟨_, rfl, by cases ok <;> rfl, by cases ok <;> simp, by cases ok <;> simp⟩⟩
  case callDone => exact ⟨rfl, .inr ⟨_, rfl, rfl, by simp, by simp⟩⟩
  case callback => exact ⟨rfl, .inr ⟨_, rfl, rfl, by simp, by simp⟩⟩
  all_goals exact ⟨rfl, .inl rfl⟩

theorem creach_quit {k : Option Nat} {s : CS N} (h : CReach k s) : s.quit = true ↔ .destroy ∈ s.log := by
  induction h with
  | init => simp [CS.init]
  | work _ hs ih =>
    obtain ⟨h1, h2 | ⟨e, h2, _, h3, _⟩⟩ := work_log hs
    · rw [h1, h2]; exact ih
    · rw [h1, h2, ih, List.mem_cons]
      exact ⟨.inr, fun hx => hx.resolve_left fun he => h3 he.symm⟩
  | user _ hs ih =>
    cases hs with
    | start => simpa using ih
    | finalize => simpa using ih
    | destroy => simp
  | spurious _ hs ih => cases hs <;> exact ih

theorem creach_started {k : Option Nat} {s : CS N} (h : CReach k s) {c : Bool} (hf : .finalize c ∈ s.log) :
    started s.log = true := by
  induction h with
  | init => cases hf
  | work _ hs ih =>
    obtain ⟨_, h2 | ⟨e, h2, h3, _, h4⟩⟩ := work_log hs
    · rw [h2] at hf ⊢; exact ih hf
    · rw [h2] at hf ⊢
      rw [started_cons h3]
      rcases List.mem_cons.1 hf with hx | hx
      · exact absurd hx.symm (h4 c)
      · exact ih hx
  | user _ hs ih =>
    cases hs with
    | start => rfl
    | finalize hq hm => exact hm.1
    | destroy => exact ih (by simpa using hf)
  | spurious _ hs ih => cases hs <;> exact ih hf

/-- The trace up to the destructor. -/
theorem creach_trace {k : Option Nat} (hk : EpochSetting k) {s : CS N} (h : CReach k s) :
    ∀ l2 l1, s.log = l2 ++ l1 → .destroy ∉ l1 → TraceOk k l1 := by
  have base : ∀ s : CS N, CReach k s → .destroy ∉ s.log → TraceOk k s.log := by
    intro s hs hd
    obtain ⟨arr, G, base, next, run, hi⟩ := creach_inv hk hs
    have hq : s.quit = false := by
      cases hq : s.quit with
      | false => rfl
      | true => exact absurd ((creach_quit hs).1 hq) hd
    exact (hi.n hq).tr
  have cons : ∀ (s s' : CS N) (e : Ev), CReach k s' → s'.log = e :: s.log →
      (∀ l2 l1, s.log = l2 ++ l1 → .destroy ∉ l1 → TraceOk k l1) →
      ∀ l2 l1, s'.log = l2 ++ l1 → .destroy ∉ l1 → TraceOk k l1 := by
    intro s s' e hs' he ih l2 l1 hl hd
    cases l2 with
    | nil =>
      have hl : s'.log = l1 := hl
      rw [← hl]
      exact base s' hs' (by rw [hl]; exact hd)
    | cons e2 l2 =>
      rw [he] at hl
      simp only [List.cons_append, List.cons.injEq] at hl
      exact ih l2 l1 hl.2 hd
  induction h with
  | init =>
    intro l2 l1 hl hd
    have : l1 = [] := by
      have hl' : l2 ++ l1 = [] := hl.symm
      exact (List.append_eq_nil_iff.1 hl').2
    rw [this]; trivial
  | work hr hs ih =>
    obtain ⟨_, h2 | ⟨e, h2, _, _⟩⟩ := work_log hs
    · rw [h2]; exact ih
    · exact cons _ _ e (.work hr hs) h2 ih
  | user hr hs ih =>
    have hr' := CReach.user hr hs
    cases hs with
    | start => exact cons _ _ _ hr' rfl ih
    | finalize => exact cons _ _ _ hr' rfl ih
    | destroy => exact cons _ _ _ hr' rfl ih
  | spurious _ hs ih => cases hs <;> exact ih

/-! ## Epoch settings -/

theorem epochLoop_pow (j : Nat) : ∀ (fuel : Nat) (l : BitVec 32), j < fuel →
    epochLoop fuel l (2 ^ j) = l + BitVec.ofNat 32 (j + 1) := by
  induction j with
  | zero =>
    intro fuel l hf
    cases fuel with
    | zero => omega
    | succ f =>
      cases f <;> simp [epochLoop]
  | succ j ih =>
    intro fuel l hf
    cases fuel with
    | zero => omega
    | succ f =>
      have h2 : 2 ^ (j + 1) / 2 = 2 ^ j := by rw [Nat.pow_succ]; exact Nat.mul_div_cancel _ (by decide)
      rw [epochLoop, if_pos (Nat.pow_pos (by decide)), h2, ih f (l + 1) (by omega), BitVec.add_assoc]
      congr 1
      apply BitVec.eq_of_toNat_eq
      simp [BitVec.toNat_add]
      omega

theorem setEpoch_pow {j : Nat} (hj : j < 64) : setEpoch (2 ^ j) = some j := by
  have h1 : BitVec.allOnes 32 + BitVec.ofNat 32 (j + 1) = BitVec.ofNat 32 j := by
    apply BitVec.eq_of_toNat_eq
    rw [BitVec.toNat_add, BitVec.toNat_allOnes, BitVec.toNat_ofNat, BitVec.toNat_ofNat]
    omega
  unfold setEpoch
  rw [epochLoop_pow j 64 _ hj, h1]
  have h2 : (BitVec.ofNat 32 j).toNat = j := by rw [BitVec.toNat_ofNat]; omega
  have h3 : BitVec.ofNat 32 j ≠ BitVec.allOnes 32 := by
    intro h
    have := congrArg BitVec.toNat h
    rw [h2, BitVec.toNat_allOnes] at this
    omega
  simp only
  rw [if_neg h3, h2]

theorem setEpoch_zero : setEpoch 0 = none := by decide

theorem epochSetting_of {E : Nat} (h : EpochOk E) : EpochSetting (setEpoch E) := by
  intro j hj
  rcases h with rfl | ⟨i, h1, h2, rfl⟩
  · rw [setEpoch_zero] at hj; cases hj
  · rw [setEpoch_pow h2] at hj
    cases hj
    exact h1

/-! ## Executing the model -/

/-- One step of thread `t`, the first one possible. -/
def CS.step (k : Option Nat) (fail : Bool) (t : Fin N) (s : CS N) : Option (CS N) :=
  match s.bar.wt t with
  | .asleep _ => none
  | .awake g => some { s with bar := s.bar.recheck t g }
  | .out =>
  match (s.thr t).pc with
  | .top => if s.quit then some (s.setPc t .done) else some (s.setPc t .trig)
  | .trig => if s.trig ≠ (s.thr t).lastTrig ∨ s.quit = true then
      some (s.setThr t { s.thr t with pc := .enter, lastTrig := s.trig }) else some (s.setPc t .trigSleep)
  | .enter => some (s.setThr t { s.thr t with
        pc := .fetch, lastOff := 0, valid := s.size - s.size % blockSize })
  | .fetch => some ({ s with cur := s.cur + blockSize }.setThr t { s.thr t with
        pc := .epoch (numEpochs k s.cur s.size (s.thr t).lastOff), off := s.cur })
  | .epoch 0 => some (s.setThr t { s.thr t with
        pc := if (s.thr t).valid ≤ (s.thr t).off then .fin else .handle
        lastOff := (s.thr t).off })
  | .epoch (r + 1) => some ({ s with bar := s.bar.arrive t }.setPc t (.epochIn r))
  | .epochIn r => some (s.setPc t (.epoch r))
  | .handle => some (s.setPc t (if fail then .failed else .deliver true))
  | .failed => some ({ s with error := true, cur := bigOffset }.setPc t (.deliver false))
  | .deliver ok => some ({ s with
        log := (if ok then .block (s.thr t).off else .failBlock (s.thr t).off) :: s.log }.setPc t
          (.inCall ok))
  | .inCall _ => some ({ s with log := .returned (s.thr t).off :: s.log }.setPc t .fetch)
  | .fin => if s.finalizing = true ∨ s.quit = true then some (s.setPc t .finArr) else some (s.setPc t .finSleep)
  | .finArr => some ({ s with bar := s.bar.arrive t }.setPc t .finIn)
  | .finIn => some (s.setPc t (if t.val = 0 then .reset else .top))
  | .reset => if s.quit then some (s.setPc t .top) else
      some ({ s with size := 0, cur := 0, error := false, finalizing := false }.setPc t (.callback (!s.error)))
  | .callback ok => some ({ s with log := .finalized ok :: s.log }.setPc t .inCallback)
  | .inCallback => some (s.setPc t .top)
  | _ => none

theorem step_work {k : Option Nat} {fail : Bool} {t : Fin N} {s s' : CS N} (h : s.step k fail t = some s') :
    CWork k t s s' := by
  unfold CS.step at h
  split at h
  · cases h
  · rename_i g hw; cases h; exact .recheck hw
  · rename_i hw
    split at h
    case h_1 hp =>
      split at h
      · rename_i hq; cases h; exact .topQuit hp hq
      · rename_i hq; cases h; exact .topGo hp (by simpa using hq)
    case h_2 hp =>
      split at h
      · rename_i hq; cases h; exact .trigGo hp hq
      · rename_i hq
        cases h
        rw [not_or] at hq
        exact .trigWait hp ⟨by simpa using hq.1, by simpa using hq.2⟩
    case h_3 hp => cases h; exact .enter hp
    case h_4 hp => cases h; exact .fetch hp
    case h_5 hp => cases h; exact .epochEnd hp
    case h_6 hp => cases h; exact .epochArrive hp
    case h_7 hp => cases h; exact .epochOut hp hw
    case h_8 hp =>
      cases h
      cases fail
      · exact .handleOk hp
      · exact .handleFail hp
    case h_9 hp => cases h; exact .failed hp
    case h_10 hp => cases h; exact .deliver hp
    case h_11 hp => cases h; exact .callDone hp
    case h_12 hp =>
      split at h
      · rename_i hq; cases h; exact .finGo hp hq
      · rename_i hq
        cases h
        rw [not_or] at hq
        exact .finWait hp ⟨by simpa using hq.1, by simpa using hq.2⟩
    case h_13 hp => cases h; exact .finArrive hp
    case h_14 hp => cases h; exact .finOut hp hw
    case h_15 hp =>
      split at h
      · rename_i hq; cases h; exact .resetQuit hp hq
      · rename_i hq; cases h; exact .reset hp (by simpa using hq)
    case h_16 hp => cases h; exact .callback hp
    case h_17 hp => cases h; exact .callbackDone hp
    case h_18 => cases h

/-- What an execution does next. -/
inductive Act (N : Nat)
  | go (t : Fin N) | bad (t : Fin N) | start (n : Nat) | fin (c : Bool) | kill
  deriving DecidableEq

instance (tr : List Ev) : Decidable (mayStart tr) := by
  unfold mayStart
  have : Decidable (∃ ok, Ev.finalized ok ∈ curOp tr) :=
    decidable_of_iff (Ev.finalized true ∈ curOp tr ∨ Ev.finalized false ∈ curOp tr) (by
      constructor
      · rintro (h | h)
        · exact ⟨_, h⟩
        · exact ⟨_, h⟩
      · rintro ⟨ok, h⟩
        cases ok
        · exact .inr h
        · exact .inl h)
  infer_instance

instance (tr : List Ev) : Decidable (mayFinalize tr) := by
  unfold mayFinalize
  infer_instance

def CS.act (k : Option Nat) (s : CS N) : Act N → Option (CS N)
  | .go t => s.step k false t
  | .bad t => s.step k true t
  | .start size => if s.quit = false ∧ mayStart s.log ∧ size < bigOffset then some { s with
        size := size, trig := s.trig + 1, thr := fun t => (s.thr t).wake, log := .start size :: s.log } else none
  | .fin cancel => if s.quit = false ∧ mayFinalize s.log then some { s with
        finalizing := true, cur := if cancel then bigOffset else s.cur, thr := fun t => (s.thr t).wake
        log := .finalize cancel :: s.log } else none
  | .kill => if s.quit = false then some { s with
        quit := true, cur := bigOffset, thr := fun t => (s.thr t).wake, bar := s.bar.interrupt
        log := .destroy :: s.log } else none

def CS.acts (k : Option Nat) : List (Act N) → CS N → Option (CS N)
  | [], s => some s
  | a :: as, s => (s.act k a).bind (CS.acts k as)

theorem acts_reach {k : Option Nat} {as : List (Act N)} : ∀ {s s' : CS N}, CReach k s → s.acts k as = some s' →
    CReach k s' := by
  induction as with
  | nil =>
    intro s s' h he
    cases he; exact h
  | cons a as ih =>
    intro s s' h he
    rw [CS.acts] at he
    cases ha : s.act k a with
    | none => rw [ha] at he; cases he
    | some s1 =>
      rw [ha] at he
      refine ih ?_ he
      cases a with
      | go t => exact .work h (step_work ha)
      | bad t => exact .work h (step_work ha)
      | start n =>
        simp only [CS.act] at ha
        split at ha
        · rename_i hc; cases ha; exact .user h (.start hc.1 hc.2.1 hc.2.2)
        · cases ha
      | fin c =>
        simp only [CS.act] at ha
        split at ha
        · rename_i hc; cases ha; exact .user h (.finalize hc.1 hc.2)
        · cases ha
      | kill =>
        simp only [CS.act] at ha
        split at ha
        · rename_i hc; cases ha; exact .user h (.destroy hc)
        · cases ha

end Lib842
