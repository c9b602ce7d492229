import Verif.Model.LatchFine
import Mathlib.Data.Fintype.Card
import Mathlib.Data.Finset.Filter
/-!
# Helper lemmas about the fine-grained latch
-/

namespace Lib842
variable {n m : Nat}

/-- Has the call decremented the counter? -/
def CdPc.past : CdPc → Bool
  | .counted | .notified | .done => true
  | _ => false

/-- Does the thread hold the mutex? -/
def CdPc.holds : CdPc → Bool
  | .locked | .counted | .notified => true
  | _ => false

def LwPc.holds : LwPc → Bool
  | .locked | .leaving => true
  | _ => false

def FLatch.num (l : FLatch n m) : Nat := (Finset.univ.filter fun c => (l.cd c).past = true).card

theorem cd_past_update (f : Fin n → CdPc) (c : Fin n) (p : CdPc) :
    (Finset.univ.filter fun c' => (Function.update f c p c').past = true).card + (if (f c).past then 1 else 0) =
      (Finset.univ.filter fun c' => (f c').past = true).card + (if p.past then 1 else 0) := by
  classical
  have h1 : ∀ g : Fin n → CdPc, (Finset.univ.filter fun c' => (g c').past = true).card =
      ((Finset.univ.erase c).filter fun c' => (g c').past = true).card + (if (g c).past then 1 else 0) := by
    intro g
    conv_lhs => rw [← Finset.insert_erase (Finset.mem_univ c)]
    rw [Finset.filter_insert]
    split
    · rw [Finset.card_insert_of_notMem (by simp)]
    · rfl
  have h2 : ((Finset.univ.erase c).filter fun c' => (Function.update f c p c').past = true) =
      ((Finset.univ.erase c).filter fun c' => (f c').past = true) := by
    refine Finset.filter_congr fun x hx => ?_
    rw [Function.update_of_ne (Finset.ne_of_mem_erase hx)]
  rw [h1 (Function.update f c p), h1 f, h2, Function.update_self]
  omega

theorem cd_past_same {f : Fin n → CdPc} {c : Fin n} {p : CdPc} (h : (f c).past = p.past) :
    (Finset.univ.filter fun c' => (Function.update f c p c').past = true).card =
      (Finset.univ.filter fun c' => (f c').past = true).card := by
  have := cd_past_update f c p
  rw [h] at this
  exact Nat.add_right_cancel this

theorem cd_past_succ {f : Fin n → CdPc} {c : Fin n} {p : CdPc} (h : (f c).past = false) (hp : p.past = true) :
    (Finset.univ.filter fun c' => (Function.update f c p c').past = true).card =
      (Finset.univ.filter fun c' => (f c').past = true).card + 1 := by
  have := cd_past_update f c p
  rw [h, hp] at this
  exact this

structure FLatch.Inv (l : FLatch n m) : Prop where
  cdOwn : ∀ c, (l.cd c).holds = true ↔ l.owner = some (.inl c)
  wtOwn : ∀ w, (l.wt w).holds = true ↔ l.owner = some (.inr w)
  value : l.value = n - (l.num : Int)
  ok : l.broken = false
  gone : ∀ w, l.wt w = .leaving ∨ l.wt w = .returned → ∀ c, l.cd c = .done

theorem cd_past_le (l : FLatch n m) : l.num ≤ n := by
  have := Finset.card_filter_le (Finset.univ : Finset (Fin n)) (fun c => (l.cd c).past = true)
  simpa [FLatch.num] using this

theorem cd_past_lt {l : FLatch n m} {c : Fin n} (h : (l.cd c).past = false) : l.num < n := by
  have : (Finset.univ.filter fun c => (l.cd c).past = true) ⊂ (Finset.univ : Finset (Fin n)) := by
    refine Finset.filter_ssubset.2 ⟨c, Finset.mem_univ _, by simp [h]⟩
  simpa [FLatch.num] using Finset.card_lt_card this

theorem FLatch.inv_init : (FLatch.init n m).Inv := by
  refine ⟨?_, ?_, ?_, rfl, ?_⟩
  · intro c; simp [FLatch.init, CdPc.holds]
  · intro c; simp [FLatch.init, LwPc.holds]
  · simp [FLatch.init, FLatch.num, CdPc.past]
  · intro w h; simp [FLatch.init] at h

theorem lw_wake_holds (w : LwPc) : w.wake.holds = w.holds := by cases w <;> rfl

theorem FLatch.inv_step {l l' : FLatch n m} (hi : l.Inv) (h : FLatch.Step l l') : l'.Inv := by
  obtain ⟨h1, h2, h3, h4, h5⟩ := hi
  cases h with
  | @cdLock c h ho =>
    refine ⟨?_, ?_, ?_, h4, ?_⟩
    · intro c'
      by_cases hc : c' = c
      · subst hc; simp [CdPc.holds]
      · simp only [Function.update_of_ne hc, h1, ho]
        simp [Ne.symm hc]
    · intro w
      simp only [h2, ho]
      simp
    · have := cd_past_same (f := l.cd) (c := c) (p := .locked) (by rw [h]; rfl)
      rw [h3]
      unfold FLatch.num
      simp only [this]
    · intro w hw
      have := h5 w hw c
      rw [h] at this
      cases this
  | @cdCount c h =>
    have hown := (h1 c).1 (by rw [h]; rfl)
    have hlt : l.num < n := cd_past_lt (c := c) (by rw [h]; rfl)
    refine ⟨?_, h2, ?_, ?_, ?_⟩
    · intro c'
      by_cases hc : c' = c
      · subst hc; simp [CdPc.holds, hown]
      · simp only [Function.update_of_ne hc, h1]
    · have := cd_past_succ (f := l.cd) (c := c) (p := .counted) (by rw [h]; rfl) rfl
      unfold FLatch.num at h3 ⊢
      simp only [this, h3]
      push_cast
      omega
    · simp only [h4, Bool.false_or, Bool.not_eq_false', decide_eq_true_eq]
      omega
    · intro w hw
      have := h5 w hw c
      rw [h] at this
      cases this
  | @cdNotify c h =>
    have hown := (h1 c).1 (by rw [h]; rfl)
    refine ⟨?_, ?_, ?_, h4, ?_⟩
    · intro c'
      by_cases hc : c' = c
      · subst hc; simp [CdPc.holds, hown]
      · simp only [Function.update_of_ne hc, h1]
    · intro w
      simp only [lw_wake_holds, h2]
    · have := cd_past_same (f := l.cd) (c := c) (p := .notified) (by rw [h]; rfl)
      rw [h3]
      unfold FLatch.num
      simp only [this]
    · intro w hw
      have hw' : l.wt w = .leaving ∨ l.wt w = .returned := by
        revert hw
        simp only
        cases l.wt w <;> simp [LwPc.wake]
      have := h5 w hw' c
      rw [h] at this
      cases this
  | @cdUnlock c h =>
    have hown := (h1 c).1 (by rw [h]; rfl)
    refine ⟨?_, ?_, ?_, h4, ?_⟩
    · intro c'
      by_cases hc : c' = c
      · subst hc; simp [CdPc.holds]
      · simp only [Function.update_of_ne hc, h1, hown]
        simp [Ne.symm hc]
    · intro w
      simp only [h2, hown]
      simp
    · have := cd_past_same (f := l.cd) (c := c) (p := .done) (by rw [h]; rfl)
      rw [h3]
      unfold FLatch.num
      simp only [this]
    · intro w hw c'
      have := h5 w hw c
      rw [h] at this
      cases this
  | @wLock w h ho =>
    refine ⟨?_, ?_, h3, h4, ?_⟩
    · intro c; simp only [h1, ho]; simp
    · intro w'
      by_cases hw : w' = w
      · subst hw; simp [LwPc.holds]
      · simp only [Function.update_of_ne hw, h2, ho]
        simp [Ne.symm hw]
    · intro w' hw'
      by_cases hw : w' = w
      · subst hw; simp at hw'
      · simp only [Function.update_of_ne hw] at hw'
        exact h5 w' hw'
  | @wTrue w h hv =>
    have hown := (h2 w).1 (by rw [h]; rfl)
    have hall : ∀ c, l.cd c = .done := by
      intro c
      have hp : (l.cd c).past = true := by
        by_contra hc
        have := cd_past_lt (l := l) (c := c) (by simpa using hc)
        omega
      have hh : (l.cd c).holds = false := by
        by_contra hc
        have := (h1 c).1 (by simpa using hc)
        rw [hown] at this
        cases this
      revert hp hh
      cases l.cd c <;> simp [CdPc.past, CdPc.holds]
    refine ⟨h1, ?_, h3, h4, fun _ _ => hall⟩
    intro w'
    by_cases hw : w' = w
    · subst hw; simp [LwPc.holds, hown]
    · simp only [Function.update_of_ne hw, h2]
  | @wFalse w h hv =>
    have hown := (h2 w).1 (by rw [h]; rfl)
    refine ⟨?_, ?_, h3, h4, ?_⟩
    · intro c; simp only [h1, hown]; simp
    · intro w'
      by_cases hw : w' = w
      · subst hw; simp [LwPc.holds]
      · simp only [Function.update_of_ne hw, h2, hown]
        simp [Ne.symm hw]
    · intro w' hw'
      by_cases hw : w' = w
      · subst hw; simp at hw'
      · simp only [Function.update_of_ne hw] at hw'
        exact h5 w' hw'
  | @wUnlock w h =>
    have hown := (h2 w).1 (by rw [h]; rfl)
    refine ⟨?_, ?_, h3, h4, ?_⟩
    · intro c; simp only [h1, hown]; simp
    · intro w'
      by_cases hw : w' = w
      · subst hw; simp [LwPc.holds]
      · simp only [Function.update_of_ne hw, h2, hown]
        simp [Ne.symm hw]
    · intro w' hw'
      by_cases hw : w' = w
      · exact h5 w (.inl h)
      · simp only [Function.update_of_ne hw] at hw'
        exact h5 w' hw'
  | @spurious w h =>
    refine ⟨h1, ?_, h3, h4, ?_⟩
    · intro w'
      by_cases hw : w' = w
      · subst hw
        simp only [Function.update_self, ← h2, h]
        rfl
      · simp only [Function.update_of_ne hw, h2]
    · intro w' hw'
      by_cases hw : w' = w
      · subst hw; simp at hw'
      · simp only [Function.update_of_ne hw] at hw'
        exact h5 w' hw'

theorem FLatch.inv {l : FLatch n m} (h : l.Reach) : l.Inv := by
  induction h with
  | init => exact FLatch.inv_init
  | step _ hs ih => exact FLatch.inv_step ih hs

/-! ## Nobody is forgotten -/

def FLatch.Inv2 (l : FLatch n m) : Prop :=
  ∀ w, l.wt w = .asleep → ∃ c, l.cd c = .before ∨ l.cd c = .locked ∨ l.cd c = .counted

theorem cd_not_past {l : FLatch n m} (hi : l.Inv) (h : l.value ≠ 0) : ∃ c, (l.cd c).past = false := by
  by_contra hn
  have hall : ∀ c, (l.cd c).past = true := by
    intro c
    by_contra hc
    exact hn ⟨c, by simpa using hc⟩
  apply h
  rw [hi.value]
  have : l.num = n := by
    unfold FLatch.num
    rw [Finset.filter_true_of_mem fun c _ => hall c]
    simp
  omega

theorem FLatch.inv2_step {l l' : FLatch n m} (hi : l.Inv) (h2 : l.Inv2) (h : FLatch.Step l l') : l'.Inv2 := by
  cases h with
  | @cdLock c h ho => exact fun w _ => ⟨c, by simp⟩
  | @cdCount c h => exact fun w _ => ⟨c, by simp⟩
  | @cdNotify c h =>
    intro w hw
    revert hw
    simp only
    cases l.wt w <;> simp [LwPc.wake]
  | @cdUnlock c h =>
    intro w hw
    obtain ⟨c', hc'⟩ := h2 w hw
    have hne : c' ≠ c := by
      rintro rfl
      rw [h] at hc'
      simp at hc'
    exact ⟨c', by simpa only [Function.update_of_ne hne] using hc'⟩
  | @wLock w h ho =>
    intro w' hw'
    by_cases hw : w' = w
    · subst hw; simp at hw'
    · simp only [Function.update_of_ne hw] at hw'
      exact h2 w' hw'
  | @wTrue w h hv =>
    intro w' hw'
    by_cases hw : w' = w
    · subst hw; simp at hw'
    · simp only [Function.update_of_ne hw] at hw'
      exact h2 w' hw'
  | @wFalse w h hv =>
    intro w' _
    obtain ⟨c, hc⟩ := cd_not_past hi hv
    refine ⟨c, ?_⟩
    revert hc
    simp only
    cases l.cd c <;> simp [CdPc.past]
  | @wUnlock w h =>
    intro w' hw'
    by_cases hw : w' = w
    · subst hw; simp at hw'
    · simp only [Function.update_of_ne hw] at hw'
      exact h2 w' hw'
  | @spurious w h =>
    intro w' hw'
    by_cases hw : w' = w
    · subst hw; simp at hw'
    · simp only [Function.update_of_ne hw] at hw'
      exact h2 w' hw'

theorem FLatch.inv2 {l : FLatch n m} (h : l.Reach) : l.Inv2 := by
  induction h with
  | init => intro w hw; simp [FLatch.init] at hw
  | step hr hs ih => exact FLatch.inv2_step (FLatch.inv hr) ih hs

/-! ## Critical sections are atomic -/

def LwPc.coarse : LwPc → LWait
  | .before => .before
  | .locked | .woken => .check
  | .asleep => .asleep
  | .leaving | .returned => .returned

/-- Has the call woken the waiting threads? -/
def CdPc.told : CdPc → Bool
  | .notified | .done => true
  | _ => false

theorem cd_told_update (f : Fin n → CdPc) (c : Fin n) (p : CdPc) :
    (Finset.univ.filter fun c' => (Function.update f c p c').told = true).card + (if (f c).told then 1 else 0) =
      (Finset.univ.filter fun c' => (f c').told = true).card + (if p.told then 1 else 0) := by
  classical
  have h1 : ∀ g : Fin n → CdPc, (Finset.univ.filter fun c' => (g c').told = true).card =
      ((Finset.univ.erase c).filter fun c' => (g c').told = true).card + (if (g c).told then 1 else 0) := by
    intro g
    conv_lhs => rw [← Finset.insert_erase (Finset.mem_univ c)]
    rw [Finset.filter_insert]
    split
    · rw [Finset.card_insert_of_notMem (by simp)]
    · rfl
  have h2 : ((Finset.univ.erase c).filter fun c' => (Function.update f c p c').told = true) =
      ((Finset.univ.erase c).filter fun c' => (f c').told = true) := by
    refine Finset.filter_congr fun x hx => ?_
    rw [Function.update_of_ne (Finset.ne_of_mem_erase hx)]
  rw [h1 (Function.update f c p), h1 f, h2, Function.update_self]
  omega

theorem cd_told_same {f : Fin n → CdPc} {c : Fin n} {p : CdPc} (h : (f c).told = p.told) :
    (Finset.univ.filter fun c' => (Function.update f c p c').told = true).card =
      (Finset.univ.filter fun c' => (f c').told = true).card := by
  have := cd_told_update f c p
  rw [h] at this
  exact Nat.add_right_cancel this

theorem cd_told_succ {f : Fin n → CdPc} {c : Fin n} {p : CdPc} (h : (f c).told = false) (hp : p.told = true) :
    (Finset.univ.filter fun c' => (Function.update f c p c').told = true).card =
      (Finset.univ.filter fun c' => (f c').told = true).card + 1 := by
  have := cd_told_update f c p
  rw [h, hp] at this
  exact this

/-- The coarse state belonging to a fine one -/
def FLatch.coarse (l : FLatch n m) : Latch :=
  let k := (Finset.univ.filter fun c => (l.cd c).told = true).card
  { value := n - (k : Int)
    wt := fun w => if h : w < m then (l.wt ⟨w, h⟩).coarse else .before
    calls := k
    broken := false }

theorem fl_wt_update (f : Fin m → LwPc) (w : Fin m) (p : LwPc) :
    (fun i => if h : i < m then (Function.update f w p ⟨i, h⟩).coarse else LWait.before) =
      Function.update (fun i => if h : i < m then (f ⟨i, h⟩).coarse else LWait.before) w.val p.coarse := by
  funext i
  by_cases hi : i = w.val
  · subst hi
    simp
  · rw [Function.update_of_ne hi]
    by_cases hm : i < m
    · rw [dif_pos hm, dif_pos hm, Function.update_of_ne]
      intro h
      exact hi (by rw [← h])
    · rw [dif_neg hm, dif_neg hm]

theorem fl_wt_same (f : Fin m → LwPc) (w : Fin m) (p : LwPc) (h : (f w).coarse = p.coarse) :
    (fun i => if h : i < m then (Function.update f w p ⟨i, h⟩).coarse else LWait.before) =
      (fun i => if h : i < m then (f ⟨i, h⟩).coarse else LWait.before) := by
  rw [fl_wt_update, ← h]
  funext i
  by_cases hi : i = w.val
  · subst hi; simp
  · rw [Function.update_of_ne hi]

theorem lw_wake_coarse (p : LwPc) : p.wake.coarse = p.coarse.wake := by cases p <;> rfl

theorem FLatch.coarse_step {l l' : FLatch n m} (hi : l.Inv) (h : FLatch.Step l l') :
    l'.coarse = l.coarse ∨ Latch.Step n l.coarse l'.coarse := by
  cases h with
  | @cdLock c h ho =>
    left
    have := cd_told_same (f := l.cd) (c := c) (p := .locked) (by rw [h]; rfl)
    unfold FLatch.coarse
    simp only [this]
  | @cdCount c h =>
    left
    have := cd_told_same (f := l.cd) (c := c) (p := .counted) (by rw [h]; rfl)
    unfold FLatch.coarse
    simp only [this]
  | @cdNotify c h =>
    right
    have hs := cd_told_succ (f := l.cd) (c := c) (p := .notified) (by rw [h]; rfl) rfl
    have hlt : (Finset.univ.filter fun c => (l.cd c).told = true).card < n := by
      have : (Finset.univ.filter fun c => (l.cd c).told = true) ⊂ (Finset.univ : Finset (Fin n)) :=
        Finset.filter_ssubset.2 ⟨c, Finset.mem_univ _, by simp [h, CdPc.told]⟩
      simpa using Finset.card_lt_card this
    have hstep : Latch.Step n l.coarse l.coarse.countDown := Latch.Step.countDown hlt
    convert hstep using 1
    unfold FLatch.coarse Latch.countDown
    simp only [hs, Latch.mk.injEq]
    refine ⟨by push_cast; omega, ?_, trivial, ?_⟩
    · funext i
      by_cases hm : i < m
      · simp only [dif_pos hm, lw_wake_coarse]
      · simp only [dif_neg hm]
        rfl
    · simp only [Bool.false_or]
      symm
      simp only [Bool.not_eq_false', decide_eq_true_eq]
      omega
  | @cdUnlock c h =>
    left
    have := cd_told_same (f := l.cd) (c := c) (p := .done) (by rw [h]; rfl)
    unfold FLatch.coarse
    simp only [this]
  | @wLock w h ho =>
    rcases h with h | h
    · right
      have hb : l.coarse.wt w.val = .before := by
        unfold FLatch.coarse
        simp [h, LwPc.coarse]
      have hstep := Latch.Step.wait (n := n) hb
      convert hstep using 1
      unfold FLatch.coarse
      simp only [fl_wt_update]
      rfl
    · left
      unfold FLatch.coarse
      simp only [fl_wt_same l.wt w .locked (by rw [h]; rfl)]
  | @wTrue w h hv =>
    right
    have hb : l.coarse.wt w.val = .check := by
      unfold FLatch.coarse
      simp [h, LwPc.coarse]
    have hstep := Latch.Step.check (n := n) hb
    have hall := (FLatch.inv_step hi (FLatch.Step.wTrue h hv)).gone w (by simp)
    have hk : (Finset.univ.filter fun c => (l.cd c).told = true).card = n := by
      rw [Finset.filter_true_of_mem fun c _ => by
        have := hall c
        simp only at this
        rw [this]; rfl]
      simp
    have hc : l.coarse.value = 0 := by
      unfold FLatch.coarse
      simp only [hk]
      omega
    convert hstep using 1
    unfold Latch.check
    rw [if_pos hc]
    unfold FLatch.coarse
    simp only [fl_wt_update]
    rfl
  | @wFalse w h hv =>
    right
    have hb : l.coarse.wt w.val = .check := by
      unfold FLatch.coarse
      simp [h, LwPc.coarse]
    have hstep := Latch.Step.check (n := n) hb
    obtain ⟨c, hcp⟩ := cd_not_past hi hv
    have hlt : (Finset.univ.filter fun c => (l.cd c).told = true).card < n := by
      have : (Finset.univ.filter fun c => (l.cd c).told = true) ⊂ (Finset.univ : Finset (Fin n)) := by
        refine Finset.filter_ssubset.2 ⟨c, Finset.mem_univ _, ?_⟩
        revert hcp
        cases l.cd c <;> simp [CdPc.told, CdPc.past]
      simpa using Finset.card_lt_card this
    have hc : l.coarse.value ≠ 0 := by
      unfold FLatch.coarse
      simp only
      omega
    convert hstep using 1
    unfold Latch.check
    rw [if_neg hc]
    unfold FLatch.coarse
    simp only [fl_wt_update]
    rfl
  | @wUnlock w h =>
    left
    unfold FLatch.coarse
    simp only [fl_wt_same l.wt w .returned (by rw [h]; rfl)]
  | @spurious w h =>
    right
    have hb : l.coarse.wt w.val = .asleep := by
      unfold FLatch.coarse
      simp [h, LwPc.coarse]
    have hstep := Latch.Step.spurious (n := n) hb
    convert hstep using 1
    unfold FLatch.coarse
    simp only [fl_wt_update]
    rfl

theorem FLatch.coarse_reach {l : FLatch n m} (h : l.Reach) : Latch.Reach n l.coarse := by
  induction h with
  | init =>
    have : (FLatch.init n m).coarse = Latch.init n := by
      unfold FLatch.coarse Latch.init FLatch.init
      simp [CdPc.told, LwPc.coarse]
    rw [this]
    exact .init
  | step hr hs ih =>
    rcases FLatch.coarse_step (FLatch.inv hr) hs with h | h
    · rw [h]; exact ih
    · exact .step ih h

end Lib842
