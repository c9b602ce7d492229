import Verif.Model.Sync
import Mathlib.Data.Fintype.Card
/-!
# Invariants of the barrier and the latch
-/

namespace Lib842

/-- The barrier has completed `G` rounds; thread `t` has called it `arr t` times. -/
structure BarInv {N : Nat} (b : Bar N) (G : Nat) (arr : Fin N → Nat) : Prop where
  intr : b.intr = false
  gen : b.gen = BitVec.ofNat 32 G
  ph : ∀ t, arr t = G ∨ arr t = G + 1
  cnt : b.count = (Finset.univ.filter fun t => arr t = G + 1).card
  lt : 0 < N → b.count < N
  new : ∀ t, arr t = G + 1 → b.wt t = .asleep b.gen ∨ b.wt t = .awake b.gen
  old : ∀ t, arr t = G → b.wt t = .out ∨ ∃ g, g + 1 = b.gen ∧ b.wt t = .awake g

theorem barInv_init (N : Nat) : BarInv (Bar.init N) 0 (fun _ => 0) where
  intr := rfl
  gen := rfl
  ph := fun _ => .inl rfl
  cnt := by simp [Bar.init]
  lt := fun h => h
  new := fun _ h => by simp at h
  old := fun _ _ => .inl rfl

theorem ofNat_succ32 (G : Nat) : BitVec.ofNat 32 G + 1 = BitVec.ofNat 32 (G + 1) := by
  apply BitVec.eq_of_toNat_eq
  simp [BitVec.toNat_add]

theorem succ_ne32 (g : BitVec 32) : g + 1 ≠ g := by
  intro h
  have h2 := congrArg BitVec.toNat h
  have hlt := g.isLt
  have h1 : (1 : BitVec 32).toNat = 1 := rfl
  rw [BitVec.toNat_add, h1] at h2
  omega

variable {N : Nat} {b : Bar N} {G : Nat} {arr : Fin N → Nat}

theorem BarInv.out_arr (h : BarInv b G arr) {t : Fin N} (ht : b.wt t = .out) : arr t = G := by
  rcases h.ph t with h1 | h1
  · exact h1
  · rcases h.new t h1 with h2 | h2 <;> rw [ht] at h2 <;> cases h2

theorem filter_update_card {t : Fin N} (ht : arr t = G) :
    (Finset.univ.filter fun u => Function.update arr t (arr t + 1) u = G + 1) =
      insert t (Finset.univ.filter fun u => arr u = G + 1) := by
  ext u
  simp only [Finset.mem_filter, Finset.mem_univ, true_and, Finset.mem_insert]
  by_cases hu : u = t
  · subst hu; simp [ht]
  · simp [hu]

/-- Arriving.  If it was the last thread, a new round begins and everybody is let go. -/
theorem BarInv.arrive (h : BarInv b G arr) {t : Fin N} (ht : b.wt t = .out) :
    (BarInv (b.arrive t) G (Function.update arr t (arr t + 1)) ∧
      (b.arrive t).wt = Function.update b.wt t (.asleep b.gen)) ∨
    (BarInv (b.arrive t) (G + 1) (Function.update arr t (arr t + 1)) ∧
      (∀ u, Function.update arr t (arr t + 1) u = G + 1) ∧
      (b.arrive t).wt = fun u => (b.wt u).wake) := by
  have ha := h.out_arr ht
  have hnot : t ∉ Finset.univ.filter fun u => arr u = G + 1 := by simp [ha]
  have hcard : (Finset.univ.filter fun u => Function.update arr t (arr t + 1) u = G + 1).card =
      b.count + 1 := by
    rw [filter_update_card ha, Finset.card_insert_of_notMem hnot, ← h.cnt]
  unfold Bar.arrive
  by_cases hN : b.count + 1 = N
  · right
    rw [if_pos hN]
    have hall : ∀ u, Function.update arr t (arr t + 1) u = G + 1 := by
      have : (Finset.univ.filter fun u => Function.update arr t (arr t + 1) u = G + 1) = Finset.univ := by
        rw [← Finset.card_eq_iff_eq_univ, hcard, Fintype.card_fin, hN]
      intro u
      have hu : u ∈ Finset.univ.filter fun u => Function.update arr t (arr t + 1) u = G + 1 := by
        rw [this]; exact Finset.mem_univ u
      exact (Finset.mem_filter.1 hu).2
    refine ⟨⟨h.intr, ?_, fun u => .inl (hall u), ?_, ?_, ?_, ?_⟩, hall, rfl⟩
    · show b.gen + 1 = _
      rw [h.gen, ofNat_succ32]
    · show 0 = _
      symm
      rw [Finset.card_eq_zero, Finset.filter_eq_empty_iff]
      intro u _
      have := hall u
      omega
    · intro h0; exact h0
    · intro u hu
      have := hall u
      omega
    · intro u _
      show (b.wt u).wake = .out ∨ ∃ g, g + 1 = b.gen + 1 ∧ (b.wt u).wake = .awake g
      by_cases hu : u = t
      · subst hu; left; rw [ht]; rfl
      · have h2 := hall u
        rw [Function.update_of_ne hu] at h2
        right
        refine ⟨b.gen, rfl, ?_⟩
        rcases h.new u h2 with h3 | h3 <;> rw [h3] <;> rfl
  · left
    rw [if_neg hN, if_neg (by simp [Bar.pred, h.intr])]
    refine ⟨⟨h.intr, h.gen, ?_, hcard.symm, ?_, ?_, ?_⟩, rfl⟩
    · intro u
      by_cases hu : u = t
      · subst hu; right; simp [ha]
      · rw [Function.update_of_ne hu]; exact h.ph u
    · intro h0
      have := h.lt h0
      show b.count + 1 < N
      omega
    · intro u hu
      show Function.update b.wt t (.asleep b.gen) u = .asleep b.gen ∨
        Function.update b.wt t (.asleep b.gen) u = .awake b.gen
      by_cases hut : u = t
      · subst hut; left; simp
      · rw [Function.update_of_ne hut] at hu ⊢
        exact h.new u hu
    · intro u hu
      show Function.update b.wt t (.asleep b.gen) u = .out ∨
        ∃ g, g + 1 = b.gen ∧ Function.update b.wt t (.asleep b.gen) u = .awake g
      by_cases hut : u = t
      · subst hut; simp [ha] at hu
      · rw [Function.update_of_ne hut] at hu ⊢
        exact h.old u hu

/-- Changing the wait state of one thread. -/
theorem BarInv.setWt (h : BarInv b G arr) {t : Fin N} {w : BWait}
    (hn : arr t = G + 1 → w = .asleep b.gen ∨ w = .awake b.gen)
    (ho : arr t = G → w = .out ∨ ∃ g, g + 1 = b.gen ∧ w = .awake g) :
    BarInv { b with wt := Function.update b.wt t w } G arr where
  intr := h.intr
  gen := h.gen
  ph := h.ph
  cnt := h.cnt
  lt := h.lt
  new := fun u hu => by
    by_cases hut : u = t
    · subst hut; simpa using hn hu
    · simpa [Function.update_of_ne hut] using h.new u hu
  old := fun u hu => by
    by_cases hut : u = t
    · subst hut; simpa using ho hu
    · simpa [Function.update_of_ne hut] using h.old u hu

/-- An awake thread leaves exactly if its round is over. -/
theorem BarInv.recheck (h : BarInv b G arr) {t : Fin N} {g : BitVec 32} (ht : b.wt t = .awake g) :
    BarInv (b.recheck t g) G arr ∧
    ((arr t = G ∧ (b.recheck t g).wt = Function.update b.wt t .out) ∨
      (arr t = G + 1 ∧ (b.recheck t g).wt = Function.update b.wt t (.asleep g))) := by
  unfold Bar.recheck
  rcases h.ph t with ha | ha
  · rcases h.old t ha with h2 | ⟨g', hg', h2⟩
    · rw [ht] at h2; cases h2
    · rw [ht] at h2
      cases h2
      have hp : b.pred g = true := by
        have : b.gen ≠ g := by rw [← hg']; exact succ_ne32 g
        simp [Bar.pred, this]
      rw [if_pos hp]
      exact ⟨h.setWt (by omega) (fun _ => .inl rfl), .inl ⟨ha, rfl⟩⟩
  · have h2 := h.new t ha
    rw [ht] at h2
    have hg : g = b.gen := by
      rcases h2 with h2 | h2
      · cases h2
      · cases h2; rfl
    subst hg
    rw [if_neg (by simp [Bar.pred, h.intr])]
    exact ⟨h.setWt (fun _ => .inl rfl) (by omega), .inr ⟨ha, rfl⟩⟩

theorem BarInv.spurious (h : BarInv b G arr) {t : Fin N} {g : BitVec 32} (ht : b.wt t = .asleep g) :
    BarInv (b.spurious t) G arr := by
  unfold Bar.spurious
  rw [ht]
  rcases h.ph t with ha | ha
  · rcases h.old t ha with h2 | ⟨_, _, h2⟩ <;> rw [ht] at h2 <;> cases h2
  · rcases h.new t ha with h2 | h2
    · rw [ht] at h2
      cases h2
      exact h.setWt (fun _ => .inr rfl) (by omega)
    · rw [ht] at h2; cases h2

/-- Somebody has not arrived yet. -/
theorem BarInv.exists_old (h : BarInv b G arr) (hN : 0 < N) : ∃ t, arr t = G := by
  by_contra hc
  have hall : ∀ t, arr t = G + 1 := fun t => (h.ph t).resolve_left fun h1 => hc ⟨t, h1⟩
  have : (Finset.univ.filter fun t => arr t = G + 1) = Finset.univ := by
    ext u; simp [hall u]
  have hc := h.cnt
  rw [this, Finset.card_univ, Fintype.card_fin] at hc
  have := h.lt hN
  omega

/-- Nobody sleeps in an interrupted barrier. -/
def BarAwake (b : Bar N) : Prop := b.intr = true ∧ ∀ t g, b.wt t ≠ .asleep g

theorem BarAwake.arrive (h : BarAwake b) {t : Fin N} : BarAwake (b.arrive t) ∧
    (b.wt t = .out → (b.arrive t).wt t = .out) := by
  unfold Bar.arrive
  by_cases hN : b.count + 1 = N
  · rw [if_pos hN]
    refine ⟨⟨h.1, ?_⟩, fun ht => ?_⟩
    · intro u g
      show (b.wt u).wake ≠ .asleep g
      cases b.wt u <;> simp [BWait.wake]
    · show (b.wt t).wake = .out
      rw [ht]; rfl
  · rw [if_neg hN, if_pos (by simp [Bar.pred, h.1])]
    exact ⟨h, fun ht => ht⟩

theorem BarAwake.recheck (h : BarAwake b) {t : Fin N} {g : BitVec 32} :
    BarAwake (b.recheck t g) ∧ (b.recheck t g).wt = Function.update b.wt t .out := by
  unfold Bar.recheck
  rw [if_pos (by simp [Bar.pred, h.1])]
  refine ⟨⟨h.1, ?_⟩, rfl⟩
  intro u g'
  show Function.update b.wt t .out u ≠ _
  by_cases hu : u = t
  · subst hu; simp
  · rw [Function.update_of_ne hu]; exact h.2 u g'

theorem barAwake_interrupt : BarAwake b.interrupt := by
  refine ⟨rfl, ?_⟩
  intro u g
  show (b.wt u).wake ≠ .asleep g
  cases b.wt u <;> simp [BWait.wake]

/-! ## The barrier with its users -/

/-- Un-interrupted. -/
structure BarSysInv (s : BarSys N) (G : Nat) : Prop where
  bar : BarInv s.bar G s.arr
  ret : ∀ t, (s.bar.wt t = .out ∧ s.ret t = s.arr t) ∨ (s.bar.wt t ≠ .out ∧ s.ret t + 1 = s.arr t)

theorem settle_bar (s : BarSys N) (t : Fin N) : (s.settle t).bar = s.bar ∧ (s.settle t).arr = s.arr := by
  unfold BarSys.settle
  split <;> exact ⟨rfl, rfl⟩

theorem settle_ret (s : BarSys N) (t u : Fin N) :
    (s.settle t).ret u = if u = t ∧ s.bar.wt t = .out then s.ret t + 1 else s.ret u := by
  unfold BarSys.settle
  by_cases h : s.bar.wt t = .out
  · rw [if_pos h]
    by_cases hu : u = t
    · subst hu; simp [h]
    · simp [hu]
  · rw [if_neg h, if_neg (by simp [h])]

theorem wake_out (w : BWait) : w.wake = .out ↔ w = .out := by
  cases w <;> simp [BWait.wake]

theorem barSys_step {s s' : BarSys N} {G : Nat} (h : BarSysInv s G) (hs : BarSys.Step s s') :
    s'.bar.intr = true ∨ ∃ G', BarSysInv s' G' := by
  cases hs with
  | @arrive t ht =>
    right
    have hrt : s.ret t = s.arr t := by
      rcases h.ret t with h1 | h1
      · exact h1.2
      · exact absurd ht h1.1
    rcases h.bar.arrive ht with ⟨hb, hw⟩ | ⟨hb, _, hw⟩
    · refine ⟨G, ⟨by rw [(settle_bar _ _).1, (settle_bar _ _).2]; exact hb, ?_⟩⟩
      intro u
      rw [(settle_bar _ _).1, (settle_bar _ _).2, settle_ret]
      simp only [hw, Function.update_self]
      by_cases hu : u = t
      · subst hu; right; simp [hrt]
      · simpa [Function.update_of_ne hu, hu] using h.ret u
    · refine ⟨G + 1, ⟨by rw [(settle_bar _ _).1, (settle_bar _ _).2]; exact hb, ?_⟩⟩
      intro u
      rw [(settle_bar _ _).1, (settle_bar _ _).2, settle_ret]
      simp only [hw, ne_eq, wake_out]
      by_cases hu : u = t
      · subst hu; left; simp [ht, hrt]
      · simpa [Function.update_of_ne hu, hu] using h.ret u
  | @recheck t g ht =>
    right
    have hrt : s.ret t + 1 = s.arr t := by
      rcases h.ret t with h1 | h1
      · rw [ht] at h1; simp at h1
      · exact h1.2
    obtain ⟨hb, hw⟩ := h.bar.recheck ht
    refine ⟨G, ⟨by rw [(settle_bar _ _).1, (settle_bar _ _).2]; exact hb, ?_⟩⟩
    intro u
    rw [(settle_bar _ _).1, (settle_bar _ _).2, settle_ret]
    rcases hw with ⟨_, hw⟩ | ⟨_, hw⟩
    · simp only [hw]
      by_cases hu : u = t
      · subst hu; left; simp [hrt]
      · simpa [Function.update_of_ne hu, hu] using h.ret u
    · simp only [hw]
      by_cases hu : u = t
      · subst hu; right; simp [hrt]
      · simpa [Function.update_of_ne hu, hu] using h.ret u
  | @spurious t g ht =>
    right
    refine ⟨G, ⟨h.bar.spurious ht, ?_⟩⟩
    intro u
    have := h.ret u
    simp only [Bar.spurious]
    by_cases hu : u = t
    · subst hu
      simpa [ht, BWait.wake] using this
    · simpa [Function.update_of_ne hu] using this
  | interrupt => left; rfl

theorem barSys_reach {s : BarSys N} (h : BarSys.Reach s) :
    BarAwake s.bar ∨ ∃ G, BarSysInv s G := by
  induction h with
  | init => exact .inr ⟨0, barInv_init N, fun t => .inl ⟨rfl, rfl⟩⟩
  | @step s s' _ hs ih =>
    rcases ih with ih | ⟨G, ih⟩
    · left
      cases hs with
      | arrive ht => rw [(settle_bar _ _).1]; exact ih.arrive.1
      | recheck ht => rw [(settle_bar _ _).1]; exact ih.recheck.1
      | spurious ht => exact absurd ht (ih.2 _ _)
      | interrupt => exact barAwake_interrupt
    · rcases barSys_step ih hs with h2 | h2
      · left
        cases hs with
        | arrive ht =>
          rcases ih.bar.arrive ht with h3 | h3 <;>
          · have := h3.1.intr
            rw [(settle_bar _ _).1] at h2
            rw [this] at h2; cases h2
        | recheck ht =>
          have := (ih.bar.recheck ht).1.intr
          rw [(settle_bar _ _).1] at h2
          rw [this] at h2; cases h2
        | spurious ht =>
          have := (ih.bar.spurious ht).intr
          rw [this] at h2; cases h2
        | interrupt => exact barAwake_interrupt
      · exact .inr h2

end Lib842
