import Verif.Proofs.CompStream6
import Verif.Proofs.DecompStream4
/-!
# Proofs about stopping: cancellation, errors and destruction of a stream
-/

namespace Lib842
open Spec

variable {N : Nat}

/-! ## Compression stream -/

section
variable {k : Option Nat} {s s' : CS N} {t : Fin N}

theorem unreset_of {th : CThr} (h : s'.unreset) (hthr : s'.thr = Function.update s.thr t th) (hq : s'.quit = s.quit)
    (htr : s'.trig = s.trig)
    (hz : s.quit = false → th.lastTrig ≠ s.trig ∨ th.pc.mid = true → (s.thr t).lastTrig ≠ s.trig ∨ (s.thr t).pc.mid = true) :
    s.unreset := by
  obtain ⟨h1, u, h2, h3⟩ := h
  rw [hq] at h1
  rw [hthr, htr] at h3
  refine ⟨h1, u, h2, ?_⟩
  by_cases hu : u = t
  · subst hu
    rw [Function.update_self] at h3
    exact hz h1 h3
  · rw [Function.update_of_ne hu] at h3
    exact h3

theorem unreset_work (hw : CWork k t s s') (h : s'.unreset) : s.unreset := by
  cases hw with
  | recheck hw => exact h
  | trigGo hp hg =>
    refine unreset_of h rfl rfl rfl ?_
    intro hq _
    rcases hg with hg | hg
    · exact .inl fun hx => hg hx.symm
    · rw [hq] at hg; cases hg
  | finOut hp hw =>
    refine unreset_of h rfl rfl rfl ?_
    intro _ _
    exact .inr (by rw [hp]; rfl)
  | epochEnd hp =>
    refine unreset_of h rfl rfl rfl ?_
    intro _ _
    exact .inr (by rw [hp]; rfl)
  | _ =>
    refine unreset_of h rfl rfl rfl ?_
    intro _ hx
    simp_all [CPc.mid]

/-- What makes a compression stream stop -/
def evStops : Ev → Bool
  | .finalize true | .destroy | .failBlock _ => true
  | _ => false

/-- The current operation has been stopped, or is being stopped. -/
def CS.stopped (s : CS N) : Prop := (∃ e ∈ curOp s.log, evStops e = true) ∨ ∃ t, (s.thr t).pc = .deliver false

theorem stopped_of {th : CThr} (h : s'.stopped) (hthr : s'.thr = Function.update s.thr t th) (hpc : th.pc ≠ .deliver false)
    (hl : s'.log = s.log ∨ ∃ e, s'.log = e :: s.log ∧ e.isStart = false ∧ evStops e = false) : s.stopped := by
  rcases h with ⟨e, he, hs⟩ | ⟨u, hu⟩
  · left
    rcases hl with hl | ⟨e', hl, h1, h2⟩
    · rw [hl] at he; exact ⟨e, he, hs⟩
    · rw [hl, curOp_cons h1] at he
      rcases List.mem_cons.1 he with rfl | he
      · rw [h2] at hs; cases hs
      · exact ⟨e, he, hs⟩
  · right
    rw [hthr] at hu
    by_cases hut : u = t
    · subst hut
      rw [Function.update_self] at hu
      exact absurd hu hpc
    · rw [Function.update_of_ne hut] at hu
      exact ⟨u, hu⟩

theorem wake_deliver {th : CThr} : th.wake.pc = .deliver false ↔ th.pc = .deliver false := by
  unfold CThr.wake
  split <;> simp_all

/-- No further offset is handed out once the stream has been stopped, until the leader resets it. -/
theorem creach_stop (hk : EpochSetting k) (h : CReach k s) : s.unreset → s.stopped → bigOffset ≤ s.cur := by
  induction h with
  | init =>
    rintro _ (⟨e, he, _⟩ | ⟨t, ht⟩)
    · cases he
    · cases ht
  | @work s s' t hr hw ih =>
    intro hu hs
    have hu0 := unreset_work hw hu
    cases hw with
    | fetch hp =>
      refine Nat.le_trans (ih hu0 (stopped_of hs rfl (by simp) (.inl rfl))) ?_
      show s.cur ≤ s.cur + blockSize
      omega
    | failed hp => exact Nat.le_refl _
    | reset hp hq =>
      exfalso
      obtain ⟨arr, G, base, next, run, hi⟩ := creach_inv hk hr
      have ht := (hi.n hq).thr t
      unfold TInv at ht
      rw [hp] at ht
      obtain ⟨h1, u, h2, h3⟩ := hu
      have hut : u = t := by
        have e1 := ht.1
        unfold isLead at h2 e1
        exact Fin.ext ((of_decide_eq_true h2).trans (of_decide_eq_true e1).symm)
      subst hut
      simp [CS.setPc, CS.setThr, CPc.mid] at h3
      exact h3 ht.2.1
    | recheck hw => exact ih hu0 hs
    | epochEnd hp =>
      exact ih hu0 (stopped_of hs rfl (by simp; split <;> simp) (.inl rfl))
    | finOut hp =>
      exact ih hu0 (stopped_of hs rfl (by simp; split <;> simp) (.inl rfl))
    | @deliver ok hp =>
      cases ok with
      | true => exact ih hu0 (stopped_of hs rfl (by simp) (.inr ⟨_, rfl, rfl, rfl⟩))
      | false => exact ih hu0 (.inr ⟨t, hp⟩)
    | callDone hp => exact ih hu0 (stopped_of hs rfl (by simp) (.inr ⟨_, rfl, rfl, rfl⟩))
    | callback hp => exact ih hu0 (stopped_of hs rfl (by simp) (.inr ⟨_, rfl, rfl, rfl⟩))
    | _ => exact ih hu0 (stopped_of hs rfl (by simp) (.inl rfl))
  | @user s s' hr hw ih =>
    intro hu hs
    cases hw with
    | @start size hq hm hsz =>
      exfalso
      rcases hs with ⟨e, he, _⟩ | ⟨u, hu⟩
      · cases he
      · have hu : (s.thr u).wake.pc = .deliver false := hu
        rw [wake_deliver] at hu
        obtain ⟨arr, G, base, next, run, hi⟩ := creach_inv hk hr
        have hn := hi.n hq
        have ht := hn.thr u
        unfold TInv at ht
        rw [hu] at ht
        have hr := hn.runT ht.2.1
        rcases hm with hm | ⟨ok, hm⟩
        · rw [hm] at hr; cases hr.2.1
        · exact hr.2.2.1 ok hm
    | @finalize cancel hq hm =>
      cases cancel with
      | true => exact Nat.le_refl _
      | false =>
        refine ih ?_ ?_
        · obtain ⟨h1, u, h2, h3⟩ := hu
          refine ⟨h1, u, h2, ?_⟩
          have h3 : (s.thr u).wake.lastTrig ≠ s.trig ∨ (s.thr u).wake.pc.mid = true := h3
          unfold CThr.wake at h3
          split at h3
          · rename_i hp; rw [hp]; exact h3
          · rename_i hp; rw [hp]; exact .inr rfl
          · exact h3
        · rcases hs with ⟨e, he, h2⟩ | ⟨u, hu⟩
          · left
            rw [curOp_cons rfl] at he
            rcases List.mem_cons.1 he with rfl | he
            · cases h2
            · exact ⟨e, he, h2⟩
          · exact .inr ⟨u, wake_deliver.1 hu⟩
    | destroy hq => exact Nat.le_refl _
  | @spurious s s' hr hw ih =>
    intro hu hs
    cases hw with
    | @cv t hp =>
      refine ih (unreset_of hu rfl rfl rfl ?_) (stopped_of hs rfl ?_ (.inl rfl))
      · intro _ hx
        unfold CThr.wake at hx
        rcases hp with hp | hp
        · rw [hp] at hx; rw [hp]; exact hx
        · rw [hp]; exact .inr rfl
      · rw [Ne, wake_deliver]
        rcases hp with hp | hp <;> simp [hp]
    | bar hp => exact ih hu hs

/-- A thread that fetches an offset after the stream has been stopped gets none. -/
theorem fetch_stopped (hk : EpochSetting k) (h : CReach k s) (hp : (s.thr t).pc = .fetch) (hs : s.stopped ∨ .destroy ∈ s.log) :
    bigOffset ≤ s.cur := by
  obtain ⟨arr, G, base, next, run, hi⟩ := creach_inv hk h
  cases hq : s.quit with
  | true => exact (hi.q hq).cur
  | false =>
    rcases hs with hs | hs
    · refine creach_stop hk h ⟨hq, ⟨0, Nat.lt_of_le_of_lt (Nat.zero_le _) t.isLt⟩, rfl, ?_⟩ hs
      have hn := hi.n hq
      have ht := hn.thr t
      unfold TInv at ht
      rw [hp] at ht
      have h0 := hn.thr ⟨0, Nat.lt_of_le_of_lt (Nat.zero_le _) t.isLt⟩
      have hl := hn.lead ht.2.1 ⟨0, Nat.lt_of_le_of_lt (Nat.zero_le _) t.isLt⟩ rfl
      generalize s.thr ⟨0, Nat.lt_of_le_of_lt (Nat.zero_le _) t.isLt⟩ = th at h0 hl
      cases hx : th.pc with
      | callback ok =>
        unfold TInv at h0
        rw [hx] at h0
        have h1 : run = false := h0.2.2.2
        rw [h1] at ht
        cases ht.2.1
      | done =>
        unfold TInv at h0
        rw [hx] at h0
        exact h0.elim
      | top => exact .inl (hl (by rw [hx]; rfl))
      | trig => exact .inl (hl (by rw [hx]; rfl))
      | trigSleep => exact .inl (hl (by rw [hx]; rfl))
      | inCallback => exact .inl (hl (by rw [hx]; rfl))
      | _ => exact .inr rfl
    · rw [(creach_quit h).2 hs] at hq
      cases hq

instance (th : CThr) : Decidable th.holds := by
  unfold CThr.holds
  split <;> infer_instance

/-- Threads that have an offset whose block has not been handed to the callback -/
def CS.held (s : CS N) : Nat := (Finset.univ.filter fun t => (s.thr t).holds).card

theorem held_le (s : CS N) : s.held ≤ N := by
  have := Finset.card_filter_le (Finset.univ : Finset (Fin N)) fun t => (s.thr t).holds
  rw [Finset.card_univ, Fintype.card_fin] at this
  exact this

theorem held_mono (h : ∀ u, (s'.thr u).holds → (s.thr u).holds) : s'.held ≤ s.held := by
  unfold CS.held
  apply Finset.card_le_card
  intro u hu
  rw [Finset.mem_filter] at hu ⊢
  exact ⟨hu.1, h u hu.2⟩

theorem held_lt (h : ∀ u, (s'.thr u).holds → (s.thr u).holds) (h1 : (s.thr t).holds) (h2 : ¬ (s'.thr t).holds) :
    s'.held < s.held := by
  unfold CS.held
  apply Finset.card_lt_card
  rw [Finset.ssubset_iff_of_subset]
  · exact ⟨t, by simp [h1], by simp [h2]⟩
  · intro u hu
    rw [Finset.mem_filter] at hu ⊢
    exact ⟨hu.1, h u hu.2⟩

theorem holds_of {th : CThr} (hthr : s'.thr = Function.update s.thr t th) (hh : th.holds → (s.thr t).holds) :
    ∀ u, (s'.thr u).holds → (s.thr u).holds := by
  intro u hu
  rw [hthr] at hu
  by_cases hut : u = t
  · subst hut
    rw [Function.update_self] at hu
    exact hh hu
  · rw [Function.update_of_ne hut] at hu
    exact hu

/-- Steps other than fetching an offset -/
theorem holds_work (hw : CWork k t s s') (hf : (s.thr t).pc ≠ .fetch) : ∀ u, (s'.thr u).holds → (s.thr u).holds := by
  cases hw with
  | recheck hw => exact fun _ h => h
  | fetch hp => exact absurd hp hf
  | epochEnd hp =>
    refine holds_of rfl ?_
    intro hx
    unfold CThr.holds at hx ⊢
    rw [hp]
    split at hx
    all_goals (rename_i hq; dsimp only at hq; split at hq <;> first | omega | cases hq | exact hx.elim)
  | finOut hp hw =>
    refine holds_of rfl ?_
    intro hx
    unfold CThr.holds at hx
    split at hx
    all_goals (rename_i hq; dsimp only at hq; split at hq <;> first | cases hq | exact hx.elim)
  | _ =>
    refine holds_of rfl ?_
    intro hx
    simp_all [CThr.holds]

/-- Once stopped, fetching an offset gives no block to handle. -/
theorem holds_fetch (hk : EpochSetting k) (h : CReach k s) (hw : CWork k t s s') (hp : (s.thr t).pc = .fetch)
    (hs : s.stopped ∨ .destroy ∈ s.log) : ∀ u, (s'.thr u).holds → (s.thr u).holds := by
  have hb := fetch_stopped hk h hp hs
  obtain ⟨arr, G, base, next, run, hi⟩ := creach_inv hk h
  have hv := hi.b.val t
  cases hw with
  | recheck hw => exact fun _ h => h
  | fetch _ =>
    refine holds_of rfl ?_
    intro hx
    have : s.cur < (s.thr t).valid := hx
    omega
  | _ => simp_all

/-- The blocks handed out since a stop, with that of the stop itself, and those still held are at most one for each thread. -/
def CS.few (s : CS N) : Prop := ∀ l2 e l1, s.log = l2 ++ e :: l1 → (∀ x ∈ l2, x.isStart = false) → evStops e = true →
  (offsets (l2 ++ [e])).length + s.held ≤ N

theorem few_same (h : s.few) (hl : s'.log = s.log) (hh : s'.held ≤ s.held) : s'.few := by
  intro l2 e l1 h1 h2 h3
  have := h l2 e l1 (hl ▸ h1) h2 h3
  omega

theorem few_cons {x : Ev} (h : s.few) (hl : s'.log = x :: s.log) (hh : (offsets [x]).length + s'.held ≤ s.held) : s'.few := by
  intro l2 e l1 h1 h2 h3
  rw [hl] at h1
  cases l2 with
  | nil =>
    have hx : x = e := (List.cons.inj h1).1
    subst hx
    exact Nat.le_trans hh (held_le s)
  | cons y l2 =>
    obtain ⟨rfl, h4⟩ := List.cons.inj h1
    have := h l2 e l1 h4 (fun z hz => h2 z (.tail _ hz)) h3
    have e1 : offsets (x :: l2 ++ [e]) = offsets [x] ++ offsets (l2 ++ [e]) := by
      rw [← List.singleton_append (x := x) (l := l2), List.append_assoc]
      exact List.filterMap_append
    rw [e1, List.length_append]
    omega

theorem mem_curOp_split {l2 l1 : List Ev} {e : Ev} (h2 : ∀ x ∈ l2, x.isStart = false) (he : e.isStart = false) :
    e ∈ curOp (l2 ++ e :: l1) := by
  induction l2 with
  | nil => rw [List.nil_append, curOp_cons he]; exact .head _
  | cons x l2 ih =>
    rw [List.cons_append, curOp_cons (h2 x (.head _))]
    exact .tail _ (ih fun y hy => h2 y (.tail _ hy))

theorem creach_few (hk : EpochSetting k) (h : CReach k s) : s.few := by
  induction h with
  | init => intro l2 e l1 h1; cases l2 <;> cases h1
  | @work s s' t hr hw ih =>
    by_cases hf : (s.thr t).pc = .fetch
    · intro l2 e l1 h1 h2 h3
      have hl : s'.log = s.log := by
        cases hw with
        | _ => first | rfl | simp_all
      have hstop : s.stopped := by
        left
        refine ⟨e, ?_, h3⟩
        rw [← hl, h1]
        exact mem_curOp_split h2 (by cases e <;> first | rfl | cases h3)
      exact few_same ih hl (held_mono (holds_fetch hk hr hw hf (.inl hstop))) l2 e l1 h1 h2 h3
    · have hm := holds_work hw hf
      have hle := held_mono hm
      cases hw with
      | @deliver ok hp =>
        refine few_cons ih rfl ?_
        have h1 : (s.thr t).holds := by unfold CThr.holds; rw [hp]; trivial
        have h2 := held_lt hm h1 (by
          intro hx
          simp only [CS.setPc, CS.setThr, Function.update_self] at hx
          exact hx)
        cases ok
        · show 1 + _ ≤ _; omega
        · show 1 + _ ≤ _; omega
      | callDone hp =>
        refine few_cons ih rfl ?_
        show 0 + _ ≤ _
        omega
      | callback hp =>
        refine few_cons ih rfl ?_
        show 0 + _ ≤ _
        omega
      | _ => exact few_same ih rfl hle
  | @user s s' hr hw ih =>
    cases hw with
    | @start size hq hm hsz =>
      refine few_cons ih rfl ?_
      have := held_mono (s := s) (s' := { s with trig := s.trig + 1, size := size, thr := fun t => (s.thr t).wake, log := .start size :: s.log })
        fun u hu => (wake_holds _).1.1 hu
      show 0 + _ ≤ _
      rw [Nat.zero_add]
      exact this
    | @finalize cancel hq hm =>
      refine few_cons ih rfl ?_
      show 0 + _ ≤ _
      rw [Nat.zero_add]
      exact held_mono fun u hu => (wake_holds _).1.1 hu
    | destroy hq =>
      refine few_cons ih rfl ?_
      show 0 + _ ≤ _
      rw [Nat.zero_add]
      exact held_mono fun u hu => (wake_holds _).1.1 hu
  | @spurious s s' hr hw ih =>
    cases hw with
    | @cv t hp =>
      exact few_same ih rfl (held_mono (holds_of rfl fun hx => (wake_holds _).1.1 hx))
    | bar hp => exact few_same ih rfl (Nat.le_refl _)

end

/-! ## Decompression stream -/

section
variable {N : Nat} {s s' : DS N} {t : Fin N}

/-- What makes a decompression stream stop -/
def devStops : DEv → Bool
  | .finalize true | .refused _ => true
  | _ => false

structure DStop (s : DS N) : Prop where
  err : s.error = true → s.queue = []
  stop : (∃ e ∈ dcurOp s.log, devStops e = true) → s.queue = []
  ref : ∀ b, .refused b ∈ dcurOp s.log → s.error = true ∨ ∃ c, .finalize c ∈ dcurOp s.log

theorem DStop.same (h : DStop s) (he : s'.error = s.error) (hq : s'.queue = s.queue) (hl : s'.log = s.log) : DStop s' :=
  ⟨by rw [he, hq]; exact h.err, by rw [hl, hq]; exact h.stop, by rw [he, hl]; exact h.ref⟩

theorem DStop.cons {e : DEv} (h : DStop s) (he : s'.error = s.error) (hq : s.queue = [] → s'.queue = []) (hl : s'.log = e :: s.log)
    (h1 : e.isStart = false) (h2 : devStops e = false) : DStop s' := by
  refine ⟨fun hx => hq (h.err (he ▸ hx)), ?_, ?_⟩
  · rintro ⟨x, hx, hs⟩
    rw [hl, dcurOp_cons h1] at hx
    rcases List.mem_cons.1 hx with rfl | hx
    · rw [h2] at hs; cases hs
    · exact hq (h.stop ⟨x, hx, hs⟩)
  · intro b hb
    rw [hl, dcurOp_cons h1] at hb ⊢
    rcases List.mem_cons.1 hb with rfl | hb
    · cases h2
    · rw [he]
      rcases h.ref b hb with h | ⟨c, h⟩
      · exact .inl h
      · exact .inr ⟨c, .tail _ h⟩

theorem DStop.push {b : Nat} (h : DStop s) (hm : dmayPush s.log) (he : s.error = false) (he' : s'.error = false)
    (hl : s'.log = .push b :: s.log) : DStop s' := by
  refine ⟨fun hx => (by rw [he'] at hx; cases hx), ?_, ?_⟩
  · rintro ⟨x, hx, hs⟩
    rw [hl, dcurOp_cons rfl] at hx
    rcases List.mem_cons.1 hx with rfl | hx
    · cases hs
    · exfalso
      cases x with
      | finalize c => exact hm.2 _ hx
      | refused b =>
        rcases h.ref b hx with h | ⟨c, h⟩
        · rw [he] at h; cases h
        · exact hm.2 _ h
      | _ => cases hs
  · intro b hb
    rw [hl, dcurOp_cons rfl] at hb
    rcases List.mem_cons.1 hb with hb | hb
    · cases hb
    · exfalso
      rcases h.ref b hb with h | ⟨c, h⟩
      · rw [he] at h; cases h
      · exact hm.2 _ h

theorem dreach_stop (h : DReach s) : DStop s := by
  induction h with
  | init => exact ⟨fun _ => rfl, fun _ => rfl, fun b hb => by cases hb⟩
  | @work s s' t hr hw ih =>
    cases hw with
    | @popTake b q hp hq hx =>
      refine ih.cons rfl ?_ rfl rfl rfl
      intro h
      rw [hx] at h
      cases h
    | handleOk hp => exact ih.cons rfl id rfl rfl rfl
    | handleFail hp => exact ih.cons rfl id rfl rfl rfl
    | failed hp => exact ⟨fun _ => rfl, fun _ => rfl, fun _ _ => .inl rfl⟩
    | reset hp hq =>
      refine ⟨fun h => (by cases h), ih.stop, fun b hb => .inr ?_⟩
      obtain ⟨arr, G, base, run, hi⟩ := dreach_inv hr
      have hn := hi.n hq
      have ht := hn.thr t
      unfold DTInv at ht
      rw [hp] at ht
      exact (hn.runT ht.2.2.2.1).2.2.1 ht.2.2.2.2.1
    | callback hp => exact ih.cons rfl id rfl rfl rfl
    | _ => exact ih.same rfl rfl rfl
  | @user s s' hr hw ih =>
    cases hw with
    | start hq hm =>
      refine ⟨ih.err, ?_, ?_⟩
      · rintro ⟨e, he, _⟩; cases he
      · intro b hb; cases hb
    | pushErr hq hm he =>
      refine ⟨ih.err, fun _ => ih.err he, fun _ _ => .inl he⟩
    | pushNone hq hm he hn => exact ih.push hm he he rfl
    | pushWake hq hm he hn => exact ih.push hm he he rfl
    | @finalize c hq hm =>
      cases c with
      | true =>
        refine ⟨fun _ => rfl, fun _ => rfl, fun b hb => .inr ⟨true, ?_⟩⟩
        rw [dcurOp_cons rfl]
        exact .head _
      | false => exact ih.cons rfl id rfl rfl rfl
    | destroy hq => exact ih.cons rfl id rfl rfl rfl
  | spurious hr hw ih => cases hw <;> exact ih.same rfl rfl rfl

theorem mem_dcurOp_split {l2 l1 : List DEv} {e : DEv} (h2 : ∀ x ∈ l2, x.isStart = false) (he : e.isStart = false) :
    e ∈ dcurOp (l2 ++ e :: l1) := by
  induction l2 with
  | nil => rw [List.nil_append, dcurOp_cons he]; exact .head _
  | cons x l2 ih =>
    rw [List.cons_append, dcurOp_cons (h2 x (.head _))]
    exact .tail _ (ih fun y hy => h2 y (.tail _ hy))

/-- No block is begun after a stop. -/
def DS.none (s : DS N) : Prop := ∀ l2 e l1, s.log = l2 ++ e :: l1 → (∀ x ∈ l2, x.isStart = false) →
  devStops e = true ∨ e = .destroy → begins l2 = []

theorem dnone_cons {x : DEv} (h : s.none) (hl : s'.log = x :: s.log) (hx : begins [x] = []) : s'.none := by
  intro l2 e l1 h1 h2 h3
  rw [hl] at h1
  cases l2 with
  | nil => rfl
  | cons y l2 =>
    obtain ⟨rfl, h4⟩ := List.cons.inj h1
    have := h l2 e l1 h4 (fun z hz => h2 z (.tail _ hz)) h3
    have e1 : begins (x :: l2) = begins [x] ++ begins l2 := by
      rw [← List.singleton_append (x := x) (l := l2)]
      exact List.filterMap_append
    rw [e1, hx, this]
    rfl

theorem dnone_same (h : s.none) (hl : s'.log = s.log) : s'.none := by
  intro l2 e l1 h1
  exact h l2 e l1 (hl ▸ h1)

theorem dreach_none (h : DReach s) : s.none := by
  induction h with
  | init => intro l2 e l1 h1; cases l2 <;> cases h1
  | @work s s' t hr hw ih =>
    cases hw with
    | @popTake b q hp hq hx =>
      intro l2 e l1 h1 h2 h3
      have h1 : DEv.begin b :: s.log = l2 ++ e :: l1 := h1
      cases l2 with
      | nil => rfl
      | cons y l2 =>
        exfalso
        obtain ⟨rfl, h4⟩ := List.cons.inj h1
        rcases h3 with h3 | rfl
        · have := (dreach_stop hr).stop ⟨e, by
            rw [h4]
            exact mem_dcurOp_split (fun z hz => h2 z (.tail _ hz)) (by cases e <;> first | rfl | cases h3), h3⟩
          rw [hx] at this
          cases this
        · have := (dreach_quit hr).2 (by rw [h4]; simp)
          rw [hq] at this
          cases this
    | handleOk hp => exact dnone_cons ih rfl rfl
    | handleFail hp => exact dnone_cons ih rfl rfl
    | callback hp => exact dnone_cons ih rfl rfl
    | _ => exact dnone_same ih rfl
  | @user s s' hr hw ih => cases hw <;> exact dnone_cons ih rfl rfl
  | spurious hr hw ih => cases hw <;> exact dnone_same ih rfl

end
end Lib842
