import Verif.Proofs.ClThreads
/-!
# Lemmas about concurrent calls of `cl842_decompress` (C112): the static variable, the number of steps, progress
-/

namespace Lib842.ClT

/-- The static variable. -/
structure InvO (l : List ClLab) (s : ClState) : Prop where
  bld : ∀ i, (s.th i).res = none → (s.th i).pc = .build → s.obj = .building
  uniq : ∀ i j, (s.th i).res = none → (s.th i).pc = .build → (s.th j).res = none → (s.th j).pc = .build → i = j
  who : s.obj = .building → ∃ i, (s.th i).res = none ∧ (s.th i).pc = .build
  rdy : ∀ i, (s.th i).res = none → (s.th i).pc ≠ .enter → (s.th i).pc ≠ .build → s.obj = .ready
  cnt : ((∃ i, ClLab.built i ∈ l) ↔ s.obj = .ready) ∧ (l.filter fun b => match b with | .built _ => true | _ => false).length ≤ 1

/-- A step that changes the call `i` only, which is and stays elsewhere. -/
theorem InvO.other {l : List ClLab} {s s' : ClState} {i : Nat} {b : ClLab} (h : InvO l s) (ho : s'.obj = s.obj)
    (hth : ∀ j, j ≠ i → s'.th j = s.th j) (h1 : (s'.th i).pc ≠ .build) (h2 : (s.th i).pc ≠ .build)
    (h3 : (s'.th i).res = none → (s'.th i).pc ≠ .enter → s.obj = .ready) (hb : ∀ j, b ≠ .built j) : InvO (b :: l) s' := by
  refine ⟨?_, ?_, ?_, ?_, ?_⟩
  · intro j hr hp
    by_cases hj : j = i
    · subst hj; exact absurd hp h1
    · rw [hth j hj] at hr hp; rw [ho]; exact h.bld j hr hp
  · intro j k hr hp hr' hp'
    have hj : j ≠ i := by rintro rfl; exact h1 hp
    have hk : k ≠ i := by rintro rfl; exact h1 hp'
    rw [hth j hj] at hr hp; rw [hth k hk] at hr' hp'
    exact h.uniq j k hr hp hr' hp'
  · intro hob
    rw [ho] at hob
    obtain ⟨j, hr, hp⟩ := h.who hob
    have hj : j ≠ i := by rintro rfl; exact h2 hp
    exact ⟨j, by rw [hth j hj]; exact hr, by rw [hth j hj]; exact hp⟩
  · intro j hr hp hp'
    by_cases hj : j = i
    · subst hj; rw [ho]; exact h3 hr hp
    · rw [hth j hj] at hr hp hp'; rw [ho]; exact h.rdy j hr hp hp'
  · rw [ho, ← h.cnt.1]
    refine ⟨⟨?_, ?_⟩, ?_⟩
    · rintro ⟨j, hj⟩
      rcases List.mem_cons.1 hj with hj | hj
      · exact absurd hj.symm (hb j)
      · exact ⟨j, hj⟩
    · rintro ⟨j, hj⟩; exact ⟨j, List.mem_cons_of_mem _ hj⟩
    · rw [List.filter_cons, if_neg]
      · exact h.cnt.2
      · cases b with
        | built j => exact absurd rfl (hb j)
        | _ => simp

/-- The construction ends without success. -/
theorem InvO.give_up {l : List ClLab} {s s' : ClState} {i : Nat} (h : InvO l s) (ho : s'.obj = .no)
    (hth : ∀ j, j ≠ i → s'.th j = s.th j) (h1 : (s'.th i).res ≠ none) (h2 : (s.th i).pc = .build) (h3 : (s.th i).res = none) :
    InvO (.fail i :: l) s' := by
  have hob := h.bld i h3 h2
  refine ⟨?_, ?_, ?_, ?_, ?_⟩
  · intro j hr hp
    have hj : j ≠ i := by rintro rfl; exact h1 hr
    rw [hth j hj] at hr hp
    exact absurd (h.uniq j i hr hp h3 h2) hj
  · intro j k hr hp
    have hj : j ≠ i := by rintro rfl; exact h1 hr
    rw [hth j hj] at hr hp
    exact absurd (h.uniq j i hr hp h3 h2) hj
  · rw [ho]; intro hx; cases hx
  · intro j hr hp hp'
    have hj : j ≠ i := by rintro rfl; exact h1 hr
    rw [hth j hj] at hr hp hp'
    have := h.rdy j hr hp hp'
    rw [hob] at this; cases this
  · rw [ho]
    have hno : ¬ ∃ j, ClLab.built j ∈ l := by rw [h.cnt.1, hob]; simp
    refine ⟨⟨?_, fun hx => by cases hx⟩, ?_⟩
    · rintro ⟨j, hj⟩
      rcases List.mem_cons.1 hj with hj | hj
      · cases hj
      · exact absurd ⟨j, hj⟩ hno
    · rw [List.filter_cons, if_neg (by simp)]; exact h.cnt.2

theorem invO_step {e : Endian} {inp buf : Nat → List Byte} {l : List ClLab} {s s' : ClState} {b : ClLab} (hI : Inv e inp buf s) (h : InvO l s)
    (hs : ClStep e inp buf s s' b) : InvO (b :: l) s' := by
  cases hs with
  | @begin i hr hpc ho =>
    refine ⟨?_, ?_, ?_, ?_, ?_⟩
    · intro j _ _; rfl
    · have hnone : ∀ j, j ≠ i → (s.th j).res = none → (s.th j).pc ≠ .build := by
        intro j _ hr' hp'
        have := h.bld j hr' hp'; rw [ho] at this; cases this
      intro j k hr1 hp1 hr2 hp2
      by_cases hj : j = i
      · by_cases hk : k = i
        · rw [hj, hk]
        · rw [set_other _ _ hk] at hr2 hp2; exact absurd hp2 (hnone k hk hr2)
      · rw [set_other _ _ hj] at hr1 hp1; exact absurd hp1 (hnone j hj hr1)
    · intro _; exact ⟨i, by rw [set_same]; exact hr, by rw [set_same]⟩
    · intro j hr1 hp1 hp2
      by_cases hj : j = i
      · subst hj; rw [set_same] at hp2; exact absurd rfl hp2
      · rw [set_other _ _ hj] at hr1 hp1 hp2
        have := h.rdy j hr1 hp1 hp2
        rw [ho] at this; cases this
    · have hno : ¬ ∃ j, ClLab.built j ∈ l := by rw [h.cnt.1, ho]; simp
      refine ⟨⟨?_, fun hx => by cases hx⟩, ?_⟩
      · rintro ⟨j, hj⟩
        rcases List.mem_cons.1 hj with hj | hj
        · cases hj
        · exact absurd ⟨j, hj⟩ hno
      · rw [List.filter_cons, if_neg (by simp)]; exact h.cnt.2
  | @pass i hr hpc ho =>
    refine h.other (i := i) rfl (fun j hj => set_other _ _ hj) ?_ ?_ (fun _ _ => ho) (by simp)
    · rw [set_same]; simp
    · rw [hpc]; simp
  | @built i hr hpc =>
    have hob := h.bld i hr hpc
    refine ⟨?_, ?_, ?_, ?_, ?_⟩
    · intro j hr1 hp1
      by_cases hj : j = i
      · subst hj; rw [set_same] at hp1; cases hp1
      · rw [set_other _ _ hj] at hr1 hp1
        exact absurd (h.uniq j i hr1 hp1 hr hpc) hj
    · intro j k hr1 hp1
      by_cases hj : j = i
      · subst hj; rw [set_same] at hp1; cases hp1
      · rw [set_other _ _ hj] at hr1 hp1
        exact absurd (h.uniq j i hr1 hp1 hr hpc) hj
    · intro hx; cases hx
    · intro j _ _ _; rfl
    · have hno : ¬ ∃ j, ClLab.built j ∈ l := by rw [h.cnt.1, hob]; simp
      refine ⟨⟨fun _ => rfl, fun _ => ⟨i, List.mem_cons_self ..⟩⟩, ?_⟩
      have : (l.filter fun b => match b with | .built _ => true | _ => false) = [] := by
        rw [List.filter_eq_nil_iff]
        intro b hb
        cases b with
        | built j => exact absurd ⟨j, hb⟩ hno
        | _ => simp
      rw [List.filter_cons, if_pos rfl, this]; simp
  | @escape i hr hpc => exact h.give_up rfl (fun j hj => set_other _ _ hj) (by rw [set_same]; simp) hpc hr
  | @alloc i k junk b hr hpc hb =>
    refine h.other (i := i) rfl (fun j hj => set_other _ _ hj) ?_ ?_ (fun _ _ => h.rdy i hr (by simp [hpc]) (by simp [hpc])) (by simp)
    · rw [set_same]; dsimp only; split <;> simp
    · rw [hpc]; simp
  | @upload i _ hr hpc _ _ =>
    refine h.other (i := i) rfl (fun j hj => set_other _ _ hj) ?_ ?_ (fun _ _ => h.rdy i hr (by simp [hpc]) (by simp [hpc])) (by simp)
    · rw [set_same]; simp
    · rw [hpc]; simp
  | @launch i hr hpc =>
    refine h.other (i := i) rfl (fun j hj => set_other _ _ hj) ?_ ?_ (fun _ _ => h.rdy i hr (by simp [hpc]) (by simp [hpc])) (by simp)
    · rw [set_same]; simp
    · rw [hpc]; simp
  | @wait i hr hpc _ =>
    refine h.other (i := i) rfl (fun j hj => set_other _ _ hj) ?_ ?_ (fun _ _ => h.rdy i hr (by simp [hpc]) (by simp [hpc])) (by simp)
    · rw [set_same]; simp
    · rw [hpc]; simp
  | @getOut i _ hr hpc _ _ =>
    refine h.other (i := i) rfl (fun j hj => set_other _ _ hj) ?_ ?_ (fun _ _ => h.rdy i hr (by simp [hpc]) (by simp [hpc])) (by simp)
    · rw [set_same]; simp
    · rw [hpc]; simp
  | @getSize i _ _ hr hpc _ =>
    refine h.other (i := i) rfl (fun j hj => set_other _ _ hj) ?_ ?_ (fun _ _ => h.rdy i hr (by simp [hpc]) (by simp [hpc])) (by simp)
    · rw [set_same]; simp
    · rw [hpc]; simp
  | @getRet i _ _ hr hpc _ =>
    refine h.other (i := i) rfl (fun j hj => set_other _ _ hj) ?_ ?_ (fun _ _ => h.rdy i hr (by simp [hpc]) (by simp [hpc])) (by simp)
    · rw [set_same]; simp
    · rw [hpc]; simp
  | @fail i hr hpc =>
    by_cases hb : (s.th i).pc = .build
    · refine h.give_up ?_ (fun j hj => set_other _ _ hj) (by rw [set_same]; simp) hb hr
      show (if _ then _ else _) = _
      rw [if_pos hb]
    · refine h.other (i := i) ?_ (fun j hj => set_other _ _ hj) ?_ hb ?_ (by simp)
      · show (if _ then _ else _) = _
        rw [if_neg hb]
      · rw [set_same]; exact hb
      · rw [set_same]; simp
  | dev hq _ _ =>
    refine ⟨h.bld, h.uniq, h.who, h.rdy, ?_⟩
    show ((∃ i, ClLab.built i ∈ ClLab.dev :: l) ↔ s.obj = .ready) ∧ _
    refine ⟨?_, ?_⟩
    · rw [← h.cnt.1]; simp
    · rw [List.filter_cons, if_neg (by simp)]; exact h.cnt.2

theorem invO_exec {e : Endian} {inp buf : Nat → List Byte} {l : List ClLab} {s : ClState} (h : ClExec e inp buf (clStart buf) l s) :
    InvO l s := by
  induction h with
  | init => constructor <;> simp [clStart]
  | step hx hs ih => exact invO_step (inv_exec hx) ih hs

/-! ## The number of steps -/

def rank : ClPc → Nat
  | .enter => 0
  | .build => 1
  | .alloc k => k + 2
  | .upload => 7
  | .launch => 8
  | .wait => 9
  | .getOut => 10
  | .getSize => 11
  | .getRet => 12
  | .finished => 12

/-- Is it a step of call `i`? -/
def mine (i : Nat) : ClLab → Bool
  | .call j => j = i
  | .built j => j = i
  | .fail j => j = i
  | .dev => false

theorem count_exec {e : Endian} {inp buf : Nat → List Byte} {l : List ClLab} {s : ClState} (h : ClExec e inp buf (clStart buf) l s) (i : Nat) :
    (l.filter (mine i)).length ≤ rank (s.th i).pc + if (s.th i).res = none then 0 else 1 := by
  induction h with
  | init => simp [clStart, rank]
  | @step l s s' b hx hs ih =>
    have hI := inv_exec hx
    have key : ∀ (j : Nat) (s' : ClState) (b : ClLab), (∀ k, k ≠ j → s'.th k = s.th k) → (∀ k, mine k b = decide (j = k)) → (s.th j).res = none →
        rank (s.th j).pc + 1 ≤ rank (s'.th j).pc + (if (s'.th j).res = none then 0 else 1) →
        ((b :: l).filter (mine i)).length ≤ rank (s'.th i).pc + if (s'.th i).res = none then 0 else 1 := by
      intro j s' b hth hm hr hle
      rw [List.filter_cons, hm]
      by_cases hij : j = i
      · subst hij
        rw [hr, if_pos rfl] at ih
        simp only [decide_true, if_true, List.length_cons]
        omega
      · rw [if_neg (by simpa using hij), hth i (fun h => hij h.symm)]
        exact ih
    cases hs with
    | @begin j hr hpc _ =>
      refine key j _ _ (fun k hk => set_other _ _ hk) (fun k => rfl) hr ?_
      rw [set_same, hpc]; simp [rank]
    | @pass j hr hpc _ =>
      refine key j _ _ (fun k hk => set_other _ _ hk) (fun k => rfl) hr ?_
      rw [set_same, hpc]; simp [rank, hr]
    | @built j hr hpc =>
      refine key j _ _ (fun k hk => set_other _ _ hk) (fun k => rfl) hr ?_
      rw [set_same, hpc]; simp [rank]
    | @escape j hr hpc =>
      refine key j _ _ (fun k hk => set_other _ _ hk) (fun k => rfl) hr ?_
      rw [set_same]; simp
    | @alloc j k _ _ hr hpc _ =>
      refine key j _ _ (fun k hk => set_other _ _ hk) (fun k => rfl) hr ?_
      have hk := (cont_pre (hI.cont j) (.inl (by rw [hpc]; rfl))).kle k hpc
      rw [set_same, hpc]
      have : rank (if k = 4 then ClPc.upload else .alloc (k + 1)) = k + 3 := by
        split
        · rename_i h4; rw [h4]; rfl
        · rfl
      dsimp only
      rw [this]
      exact Nat.le_add_right _ _
    | @upload j _ hr hpc _ _ =>
      refine key j _ _ (fun k hk => set_other _ _ hk) (fun k => rfl) hr ?_
      rw [set_same, hpc]; simp [rank]
    | @launch j hr hpc =>
      refine key j _ _ (fun k hk => set_other _ _ hk) (fun k => rfl) hr ?_
      rw [set_same, hpc]; simp [rank]
    | @wait j hr hpc _ =>
      refine key j _ _ (fun k hk => set_other _ _ hk) (fun k => rfl) hr ?_
      rw [set_same, hpc]; simp [rank]
    | @getOut j _ hr hpc _ _ =>
      refine key j _ _ (fun k hk => set_other _ _ hk) (fun k => rfl) hr ?_
      rw [set_same, hpc]; simp [rank]
    | @getSize j _ _ hr hpc _ =>
      refine key j _ _ (fun k hk => set_other _ _ hk) (fun k => rfl) hr ?_
      rw [set_same, hpc]; simp [rank]
    | @getRet j _ _ hr hpc _ =>
      refine key j _ _ (fun k hk => set_other _ _ hk) (fun k => rfl) hr ?_
      rw [set_same, hpc]; simp [rank]
    | @fail j hr hpc =>
      refine key j _ _ (fun k hk => set_other _ _ hk) (fun k => rfl) hr ?_
      rw [set_same]; simp
    | dev _ _ _ =>
      rw [List.filter_cons, if_neg (by simp [mine])]
      exact ih

theorem rank_le {e : Endian} {inp buf : Nat → List Byte} {s : ClState} (h : Inv e inp buf s) (i : Nat) : rank (s.th i).pc ≤ 12 := by
  cases hpc : (s.th i).pc with
  | alloc k =>
    have := (cont_pre (h.cont i) (.inl (by rw [hpc]; rfl))).kle k hpc
    simp only [rank]; omega
  | _ => simp [rank]

/-! ## Errors -/

theorem fail_exec {e : Endian} {inp buf : Nat → List Byte} {l : List ClLab} {s : ClState} (h : ClExec e inp buf (clStart buf) l s) (i : Nat) :
    (s.th i).res = some .nomem ∨ (s.th i).res = some .escaped ↔ ClLab.fail i ∈ l := by
  induction h with
  | init => simp [clStart]
  | @step l s s' b hx hs ih =>
    have key : ∀ (j : Nat) (s' : ClState) (b : ClLab), (∀ k, k ≠ j → s'.th k = s.th k) → (∀ k, b ≠ .fail k) → (s.th j).res = none →
        (s'.th j).res ≠ some .nomem → (s'.th j).res ≠ some .escaped →
        ((s'.th i).res = some .nomem ∨ (s'.th i).res = some .escaped ↔ ClLab.fail i ∈ b :: l) := by
      intro j s' b hth hb hr h1 h2
      have : ClLab.fail i ∈ b :: l ↔ ClLab.fail i ∈ l := by
        rw [List.mem_cons]
        exact ⟨fun h => h.resolve_left fun hx => hb i hx.symm, .inr⟩
      rw [this, ← ih]
      by_cases hij : i = j
      · subst hij; rw [hr]; simp [h1, h2]
      · rw [hth i hij]
    have keyf : ∀ (j : Nat) (s' : ClState), (∀ k, k ≠ j → s'.th k = s.th k) →
        ((s'.th j).res = some .nomem ∨ (s'.th j).res = some .escaped) →
        ((s'.th i).res = some .nomem ∨ (s'.th i).res = some .escaped ↔ ClLab.fail i ∈ ClLab.fail j :: l) := by
      intro j s' hth h1
      by_cases hij : i = j
      · subst hij; simp [h1]
      · rw [hth i hij, ih]; simp [hij]
    cases hs with
    | @begin j hr hpc _ => exact key j _ _ (fun k hk => set_other _ _ hk) (by simp) hr (by rw [set_same]; simp [hr]) (by rw [set_same]; simp [hr])
    | @pass j hr hpc _ => exact key j _ _ (fun k hk => set_other _ _ hk) (by simp) hr (by rw [set_same]; simp [hr]) (by rw [set_same]; simp [hr])
    | @built j hr hpc => exact key j _ _ (fun k hk => set_other _ _ hk) (by simp) hr (by rw [set_same]; simp [hr]) (by rw [set_same]; simp [hr])
    | @alloc j k _ _ hr hpc _ => exact key j _ _ (fun k hk => set_other _ _ hk) (by simp) hr (by rw [set_same]; simp [hr]) (by rw [set_same]; simp [hr])
    | @upload j _ hr hpc _ _ => exact key j _ _ (fun k hk => set_other _ _ hk) (by simp) hr (by rw [set_same]; simp [hr]) (by rw [set_same]; simp [hr])
    | @launch j hr hpc => exact key j _ _ (fun k hk => set_other _ _ hk) (by simp) hr (by rw [set_same]; simp [hr]) (by rw [set_same]; simp [hr])
    | @wait j hr hpc _ => exact key j _ _ (fun k hk => set_other _ _ hk) (by simp) hr (by rw [set_same]; simp [hr]) (by rw [set_same]; simp [hr])
    | @getOut j _ hr hpc _ _ => exact key j _ _ (fun k hk => set_other _ _ hk) (by simp) hr (by rw [set_same]; simp [hr]) (by rw [set_same]; simp [hr])
    | @getSize j _ _ hr hpc _ => exact key j _ _ (fun k hk => set_other _ _ hk) (by simp) hr (by rw [set_same]; simp [hr]) (by rw [set_same]; simp [hr])
    | @getRet j _ _ hr hpc _ => exact key j _ _ (fun k hk => set_other _ _ hk) (by simp) hr (by rw [set_same]; simp) (by rw [set_same]; simp)
    | @escape j hr hpc => exact keyf j _ (fun k hk => set_other _ _ hk) (by rw [set_same]; simp)
    | @fail j hr hpc => exact keyf j _ (fun k hk => set_other _ _ hk) (by rw [set_same]; simp)
    | dev _ _ _ => simpa using ih

/-! ## Progress -/

/-- What is left to do for call `i`. -/
def left (s : ClState) (i : Nat) : Nat :=
  2 * (12 - rank (s.th i).pc) + (if s.obj = .building then (if (s.th i).pc = .enter then 1 else 0) else 0) +
    (if past (s.th i).pc then (if s.fin (s.th i).ev then 0 else 1) else 0)

theorem left_of {s : ClState} {i : Nat} (hp : past (s.th i).pc = false) (he : (s.th i).pc ≠ .enter) : left s i = 2 * (12 - rank (s.th i).pc) := by
  unfold left; rw [hp, if_neg he]; split <;> simp

theorem progress {e : Endian} {inp buf : Nat → List Byte} {l : List ClLab} {s : ClState} (hI : Inv e inp buf s) (hO : InvO l s) (i : Nat)
    (hone : hostElements (inp i).length clWrapperStride = clWrapperElements)
    (hdef : ∀ order dev, order.Perm (List.range 256) → cl842Decompress e order dev (inp i) (buf i) ≠ .ub) (hr : (s.th i).res = none) :
    ∃ s' b, ClStep e inp buf s s' b ∧ (∀ j, b ≠ .fail j) ∧
      ((s'.th i).res = none ∧ left s' i < left s i ∨ ∃ rc, (s'.th i).res = some (.value rc)) := by
  have hpos : (inp i).length ≠ 0 := by
    intro h0; rw [h0] at hone; revert hone; decide
  have hfin : past (s.th i).pc = true → (s.th i).pc ≠ .wait → s.fin (s.th i).ev = true := by
    intro hp hw
    cases hf : s.fin (s.th i).ev with
    | true => rfl
    | false => exact absurd (hI.pend i hp hf).1 hw
  cases hpc : (s.th i).pc with
  | enter =>
    cases ho : s.obj with
    | no =>
      refine ⟨_, _, .begin hr hpc ho, by simp, .inl ⟨by rw [set_same]; exact hr, ?_⟩⟩
      rw [left_of (by rw [set_same]; rfl) (by rw [set_same]; simp), set_same]
      simp [left, hpc, rank]; omega
    | building =>
      obtain ⟨j, hj1, hj2⟩ := hO.who ho
      have hji : i ≠ j := by rintro rfl; rw [hpc] at hj2; cases hj2
      refine ⟨_, _, .built hj1 hj2, by simp, .inl ⟨by rw [set_other _ _ hji]; exact hr, ?_⟩⟩
      unfold left
      rw [set_other _ _ hji]
      simp only [ho, hpc, ClState.set]
      simp [rank, past]
    | ready =>
      refine ⟨_, _, .pass hr hpc ho, by simp, .inl ⟨by rw [set_same]; exact hr, ?_⟩⟩
      rw [left_of (by rw [set_same]; rfl) (by rw [set_same]; simp), set_same]
      simp [left, hpc, rank]; omega
  | build =>
    refine ⟨_, _, .built hr hpc, by simp, .inl ⟨by rw [set_same]; exact hr, ?_⟩⟩
    rw [left_of (by rw [set_same]; rfl) (by rw [set_same]; simp), set_same, left_of (by rw [hpc]; rfl) (by rw [hpc]; simp), hpc]
    simp [rank]
  | alloc k =>
    have hk := (cont_pre (hI.cont i) (.inl (by rw [hpc]; rfl))).kle k hpc
    obtain ⟨b, hb⟩ : ∃ b, clNew (inp i) (buf i) (fun _ => 0) k = some b := by
      have h5 : k = 0 ∨ k = 1 ∨ k = 2 ∨ k = 3 ∨ k = 4 := by omega
      rcases h5 with rfl | rfl | rfl | rfl | rfl <;> simp [clNew, hone, hpos, clWrapperElements]
    refine ⟨_, _, .alloc hr hpc hb, by simp, .inl ⟨by rw [set_same]; exact hr, ?_⟩⟩
    have h1 : past (if k = 4 then ClPc.upload else .alloc (k + 1)) = false := by split <;> rfl
    have h2 : (if k = 4 then ClPc.upload else .alloc (k + 1)) ≠ .enter := by split <;> simp
    have h3 : rank (if k = 4 then ClPc.upload else .alloc (k + 1)) = k + 3 := by
      split
      · rename_i h4; rw [h4]; rfl
      · rfl
    rw [left_of (by rw [set_same]; exact h1) (by rw [set_same]; exact h2), set_same, left_of (by rw [hpc]; rfl) (by rw [hpc]; simp), hpc]
    dsimp only
    rw [h3]; simp only [rank]; omega
  | upload =>
    obtain ⟨l, hl1, hl2⟩ := (cont_pre (hI.cont i) (.inl (by rw [hpc]; rfl))).b3s (by rw [hpc]; simp [lvl])
    refine ⟨_, _, .upload hr hpc hl1 (by omega), by simp, .inl ⟨by rw [set_same]; exact hr, ?_⟩⟩
    rw [left_of (by rw [set_same]; rfl) (by rw [set_same]; simp), set_same, left_of (by rw [hpc]; rfl) (by rw [hpc]; simp), hpc]
    simp [rank]
  | launch =>
    refine ⟨_, _, .launch hr hpc, by simp, .inl ⟨by rw [set_same]; exact hr, ?_⟩⟩
    rw [left_of (s := s) (by rw [hpc]; rfl) (by rw [hpc]; simp), hpc]
    unfold left
    rw [set_same]
    have hfr := hI.fresh s.evs (Nat.le_refl _)
    simp [rank, past, ClState.set, hfr]
  | wait =>
    have hpa : past (s.th i).pc = true := by rw [hpc]; rfl
    cases hf : s.fin (s.th i).ev with
    | true =>
      refine ⟨_, _, .wait hr hpc hf, by simp, .inl ⟨by rw [set_same]; exact hr, ?_⟩⟩
      unfold left
      rw [set_same, hpc]
      simp [rank, past, ClState.set, hf]
    | false =>
      obtain ⟨_, hq⟩ := hI.pend i hpa hf
      obtain ⟨q1, q2, hq⟩ := List.append_of_mem hq
      have hp := cont_pre (hI.cont i) (.inr hf)
      obtain ⟨dev, hord, hcase⟩ := run_spec e (inp i) (buf i) s.mem (s.th i) _ (s.th i).ev hp hpa (List.Perm.refl _)
      rcases hcase with ⟨_, hub⟩ | ⟨n, rc, b, _, _, hrun⟩
      · exact absurd hub (hdef _ _ hord)
      · refine ⟨_, _, .dev hq (List.Perm.refl _) hrun, by simp, .inl ⟨hr, ?_⟩⟩
        unfold left
        simp [hpc, past, ClCall.cmd, hf]
  | getOut =>
    have hf := hfin (by rw [hpc]; rfl) (by rw [hpc]; simp)
    obtain ⟨n, rc, b, hp⟩ := cont_post (hI.cont i) (by rw [hpc]; rfl) hf
    refine ⟨_, _, .getOut hr hpc hp.b4 hp.room, by simp, .inl ⟨by rw [set_same]; exact hr, ?_⟩⟩
    unfold left
    rw [set_same, hpc]
    simp [rank, past, ClState.set, hf]
  | getSize =>
    have hf := hfin (by rw [hpc]; rfl) (by rw [hpc]; simp)
    obtain ⟨n, rc, b, hp⟩ := cont_post (hI.cont i) (by rw [hpc]; rfl) hf
    refine ⟨_, _, .getSize hr hpc hp.b1, by simp, .inl ⟨by rw [set_same]; exact hr, ?_⟩⟩
    unfold left
    rw [set_same, hpc]
    simp [rank, past, ClState.set, hf]
  | getRet =>
    have hf := hfin (by rw [hpc]; rfl) (by rw [hpc]; simp)
    obtain ⟨n, rc, b, hp⟩ := cont_post (hI.cont i) (by rw [hpc]; rfl) hf
    exact ⟨_, _, .getRet hr hpc hp.b2, by simp, .inr ⟨_, by rw [set_same]⟩⟩
  | finished =>
    have hf := hfin (by rw [hpc]; rfl) (by rw [hpc]; simp)
    obtain ⟨n, rc, b, hp⟩ := cont_post (hI.cont i) (by rw [hpc]; rfl) hf
    have := hp.res
    rw [hpc, if_pos rfl, hr] at this
    cases this

theorem exec_trans {e : Endian} {inp buf : Nat → List Byte} {s₀ s s' : ClState} {l l' : List ClLab} (h : ClExec e inp buf s₀ l s)
    (h' : ClExec e inp buf s l' s') : ClExec e inp buf s₀ (l' ++ l) s' := by
  induction h' with
  | init => exact h
  | step _ hs ih => exact .step ih hs

theorem finish {e : Endian} {inp buf : Nat → List Byte} (i : Nat)
    (hone : hostElements (inp i).length clWrapperStride = clWrapperElements)
    (hdef : ∀ order dev, order.Perm (List.range 256) → cl842Decompress e order dev (inp i) (buf i) ≠ .ub) :
    ∀ (m : Nat) (l : List ClLab) (s : ClState), left s i ≤ m → ClExec e inp buf (clStart buf) l s → (s.th i).res = none →
      ∃ l' s' rc, ClExec e inp buf s l' s' ∧ (∀ j, ClLab.fail j ∉ l') ∧ (s'.th i).res = some (.value rc) := by
  intro m
  induction m with
  | zero =>
    intro l s hm hx hr
    obtain ⟨s', b, hs, hb, hd⟩ := progress (inv_exec hx) (invO_exec hx) i hone hdef hr
    rcases hd with ⟨_, hd⟩ | ⟨rc, hd⟩
    · omega
    · exact ⟨[b], s', rc, .step .init hs, fun j hj => hb j (List.mem_singleton.1 hj).symm, hd⟩
  | succ m ih =>
    intro l s hm hx hr
    obtain ⟨s', b, hs, hb, hd⟩ := progress (inv_exec hx) (invO_exec hx) i hone hdef hr
    rcases hd with ⟨hr', hd⟩ | ⟨rc, hd⟩
    · obtain ⟨l', s'', rc, h1, h2, h3⟩ := ih (b :: l) s' (by omega) (.step hx hs) hr'
      refine ⟨l' ++ [b], s'', rc, exec_trans (.step .init hs) h1, ?_, h3⟩
      intro j hj
      rcases List.mem_append.1 hj with hj | hj
      · exact h2 j hj
      · exact hb j (List.mem_singleton.1 hj).symm
    · exact ⟨[b], s', rc, .step .init hs, fun j hj => hb j (List.mem_singleton.1 hj).symm, hd⟩

/-- A call that has ended does not change. -/
theorem ended_step {e : Endian} {inp buf : Nat → List Byte} {s s' : ClState} {b : ClLab} (hs : ClStep e inp buf s s' b) (i : Nat)
    (hr : (s.th i).res ≠ none) : s'.th i = s.th i := by
  have key : ∀ (S : ClState) (j : Nat) (c : ClCall), S.th = s.th → (s.th j).res = none → (S.set j c).th i = s.th i := by
    intro S j c hS hj
    have hij : i ≠ j := by rintro rfl; exact hr hj
    rw [set_other _ _ hij, hS]
  cases hs with
  | dev _ _ _ => rfl
  | begin h _ _ => exact key _ _ _ rfl h
  | pass h _ _ => exact key _ _ _ rfl h
  | built h _ => exact key _ _ _ rfl h
  | escape h _ => exact key _ _ _ rfl h
  | alloc h _ _ => exact key _ _ _ rfl h
  | upload h _ _ _ => exact key _ _ _ rfl h
  | launch h _ => exact key _ _ _ rfl h
  | wait h _ _ => exact key _ _ _ rfl h
  | getOut h _ _ _ => exact key _ _ _ rfl h
  | getSize h _ _ => exact key _ _ _ rfl h
  | getRet h _ _ => exact key _ _ _ rfl h
  | fail h _ => exact key _ _ _ rfl h

/-! ## Faults -/

theorem no_fault {e : Endian} {inp buf : Nat → List Byte} {l : List ClLab} {s : ClState} (h : ClExec e inp buf (clStart buf) l s)
    (hlen : ∀ i, (inp i).length ≤ 99999)
    (hdef : ∀ i, inp i ≠ [] → ∀ order dev, order.Perm (List.range 256) → cl842Decompress e order dev (inp i) (buf i) ≠ .ub) : ¬ ClFault e inp s := by
  have hI := inv_exec h
  rintro (⟨i, _, _, hc⟩ | ⟨c, hc, order, hord, hrun⟩)
  · have := hlen i
    unfold hostElements hostNumChunks clWrapperStride clWrapperElements at hc
    omega
  · obtain ⟨i, hpa, hce, hf⟩ := hI.q c hc
    have hcev : c.ev = (s.th i).ev := by rw [hce]; rfl
    have hcn : c.n = hostNumChunks (inp i).length clWrapperStride := by rw [hce]; rfl
    rw [hcev] at hf
    have hp := cont_pre (hI.cont i) (.inr hf)
    rw [hcn] at hord
    obtain ⟨dev, hord', hcase⟩ := run_spec e (inp i) (buf i) s.mem (s.th i) order (s.th i).ev hp hpa hord
    rw [← hce, hrun] at hcase
    rcases hcase with ⟨_, hub⟩ | ⟨_, _, _, _, _, hx⟩
    · refine hdef i ?_ order dev hord' hub
      intro h0
      have := hp.one (by rw [lvl_past hpa]; omega)
      rw [h0] at this
      revert this; decide
    · cases hx

end Lib842.ClT
