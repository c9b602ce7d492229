import Verif.Model.BarrierFine
import Verif.Proofs.Sync
import Mathlib.Algebra.BigOperators.Fin
import Mathlib.Algebra.Order.BigOperators.Group.Finset
/-!
# The fine-grained barrier refines the coarse one
-/

namespace Lib842

/-- inside a critical section -/
def BarPc.holds : BarPc → Bool
  | .out | .asleep _ | .woken _ => false
  | _ => true

def IntPc.holds : IntPc → Bool
  | .out => false
  | _ => true

/-- the thread in the coarse model -/
def BarPc.co : BarPc → BWait
  | .asleep g => .asleep g
  | .woken g | .relocked g => .awake g
  | _ => .out

/-- the coarse step of this call is still to come -/
def BarPc.pre : BarPc → Nat
  | .locked | .last | .genned | .zeroed | .counted | .fresh _ => 1
  | _ => 0

/-- returned in the coarse model only -/
def BarPc.left : BarPc → Nat
  | .leaving => 1
  | _ => 0

/-- the fields differ from those of the coarse model -/
def BarPc.dirty : BarPc → Bool
  | .last | .genned | .zeroed | .counted | .fresh _ => true
  | _ => false

theorem BarPc.dirty_holds {p : BarPc} (h : p.dirty = true) : p.holds = true := by cases p <;> simp_all [dirty, holds]

theorem BarPc.co_wake (p : BarPc) : p.wake.co = p.co.wake := by cases p <;> rfl
theorem BarPc.holds_wake (p : BarPc) : p.wake.holds = p.holds := by cases p <;> rfl
theorem BarPc.left_wake (p : BarPc) : p.wake.left = p.left := by cases p <;> rfl
theorem BarPc.pre_wake (p : BarPc) : p.wake.pre = p.pre := by cases p <;> rfl
theorem BarPc.dirty_wake (p : BarPc) : p.wake.dirty = p.dirty := by cases p <;> rfl

/-- what a thread inside its critical section knows of the fields: `c`, `g` in the coarse model, `c'`, `g'` now -/
def BarPc.Fields (N c : Nat) (g : BitVec 32) (c' : Nat) (g' : BitVec 32) : BarPc → Prop
  | .last => c' = c + 1 ∧ g' = g ∧ c + 1 = N
  | .genned => c' = c + 1 ∧ g' = g + 1 ∧ c + 1 = N
  | .zeroed => c' = 0 ∧ g' = g + 1 ∧ c + 1 = N
  | .counted => c' = c + 1 ∧ g' = g ∧ c + 1 ≠ N
  | .fresh h => c' = c + 1 ∧ g' = g ∧ c + 1 ≠ N ∧ h = g
  | _ => True

variable {N M : Nat}

structure FBar.Rel (f : FBar N M) (a : BarSys N) : Prop where
  own : ∀ t, (f.pc t).holds = true ↔ f.owner = some (.inl t)
  iown : ∀ i, (f.ipc i).holds = true ↔ f.owner = some (.inr i)
  wt : ∀ t, a.bar.wt t = (f.pc t).co
  ret : ∀ t, a.ret t = f.ret t + (f.pc t).left
  arr : ∀ t, f.arr t = a.arr t + (f.pc t).pre
  free : (∀ t, (f.pc t).dirty = false) → f.count = a.bar.count ∧ f.gen = a.bar.gen
  fields : ∀ t, (f.pc t).Fields N a.bar.count a.bar.gen f.count f.gen
  ifree : (∀ i, f.ipc i ≠ .set) → f.intr = a.bar.intr
  iset : ∀ i, f.ipc i = .set → f.intr = true

namespace FBar.Rel
variable {f : FBar N M} {a : BarSys N}

theorem init : FBar.Rel (FBar.init N M) (BarSys.init N) :=
  ⟨fun _ => by simp [FBar.init, BarPc.holds], fun _ => by simp [FBar.init, IntPc.holds], fun _ => rfl, fun _ => rfl, fun _ => rfl,
    fun _ => ⟨rfl, rfl⟩, fun _ => trivial, fun _ => rfl, fun _ h => by cases h⟩

/-- Nobody but `t` is inside. -/
theorem alone (h : FBar.Rel f a) {t : Fin N} (ht : (f.pc t).holds = true) {u : Fin N} (hu : u ≠ t) : (f.pc u).holds = false := by
  by_contra hc
  have h1 := (h.own t).1 ht
  have h2 := (h.own u).1 (by simpa using hc)
  rw [h1] at h2
  cases h2
  exact hu rfl

theorem clean (h : FBar.Rel f a) {t : Fin N} (ht : (f.pc t).holds = true) {u : Fin N} (hu : u ≠ t) : (f.pc u).dirty = false := by
  have := h.alone ht hu
  cases hp : f.pc u <;> rw [hp] at this <;> simp_all [BarPc.holds, BarPc.dirty]

theorem noInt (h : FBar.Rel f a) {t : Fin N} (ht : (f.pc t).holds = true) (i : Fin M) : f.ipc i ≠ .set := by
  intro hi
  have h1 := (h.own t).1 ht
  have h2 := (h.iown i).1 (by rw [hi]; rfl)
  rw [h1] at h2
  cases h2

theorem intr_eq (h : FBar.Rel f a) {t : Fin N} (ht : (f.pc t).holds = true) : f.intr = a.bar.intr := h.ifree (h.noInt ht)

/-- Fields when `t` is inside and not dirty. -/
theorem free_of (h : FBar.Rel f a) {t : Fin N} (ht : (f.pc t).holds = true) (hd : (f.pc t).dirty = false) :
    f.count = a.bar.count ∧ f.gen = a.bar.gen :=
  h.free fun u => by
    by_cases hu : u = t
    · rw [hu]; exact hd
    · exact h.clean ht hu

theorem free_none (h : FBar.Rel f a) (ho : f.owner = none) : f.count = a.bar.count ∧ f.gen = a.bar.gen :=
  h.free fun u => by
    by_contra hc
    have := (h.own u).1 (BarPc.dirty_holds (by simpa using hc))
    rw [ho] at this
    cases this

theorem notHolds (h : FBar.Rel f a) (ho : f.owner = none) (t : Fin N) : (f.pc t).holds = false := by
  by_contra hc
  have := (h.own t).1 (by simpa using hc)
  rw [ho] at this
  cases this

theorem not_dirty {p : BarPc} (h : p.holds = false) : p.dirty = false := by cases p <;> simp_all [BarPc.holds, BarPc.dirty]

theorem fields_clean {p : BarPc} (h : p.dirty = false) (c : Nat) (g : BitVec 32) (c' : Nat) (g' : BitVec 32) : p.Fields N c g c' g' := by
  cases p <;> simp_all [BarPc.dirty, BarPc.Fields]

theorem fields_wake {p : BarPc} {c : Nat} {g : BitVec 32} {c' : Nat} {g' : BitVec 32} (h : p.Fields N c g c' g') : p.wake.Fields N c g c' g' := by
  cases p <;> exact h

/-- The state after a step of thread `t`, which is inside before it: `p` its new place, `a'` the coarse state. -/
theorem move (h : FBar.Rel f a) {t : Fin N} (ht : (f.pc t).holds = true) {p : BarPc} {f' : FBar N M} {a' : BarSys N}
    (hpc : f'.pc = Function.update f.pc t p) (hipc : f'.ipc = f.ipc)
    (howner : f'.owner = if p.holds then f.owner else none) (hintr : f'.intr = f.intr) (haintr : a'.bar.intr = a.bar.intr)
    (hwt : ∀ u, u ≠ t → a'.bar.wt u = a.bar.wt u) (hwtt : a'.bar.wt t = p.co)
    (hret : ∀ u, u ≠ t → a'.ret u = a.ret u ∧ f'.ret u = f.ret u) (hrett : a'.ret t = f'.ret t + p.left)
    (harr : ∀ u, u ≠ t → a'.arr u = a.arr u ∧ f'.arr u = f.arr u) (harrt : f'.arr t = a'.arr t + p.pre)
    (hfree : p.dirty = false → f'.count = a'.bar.count ∧ f'.gen = a'.bar.gen)
    (hfields : p.Fields N a'.bar.count a'.bar.gen f'.count f'.gen) : FBar.Rel f' a' := by
  have hpt : f'.pc t = p := by rw [hpc, Function.update_self]
  have hpu : ∀ u, u ≠ t → f'.pc u = f.pc u := fun u hu => by rw [hpc, Function.update_of_ne hu]
  have ho := (h.own t).1 ht
  refine ⟨fun u => ?_, fun i => ?_, fun u => ?_, fun u => ?_, fun u => ?_, fun hd => ?_, fun u => ?_, fun _ => ?_, fun i hi => ?_⟩
  · by_cases hu : u = t
    · subst hu
      rw [hpt, howner, ho]
      cases p.holds <;> simp
    · rw [hpu u hu, h.alone ht hu, howner, ho]
      cases p.holds
      · simp
      · simp [Ne.symm hu]
  · rw [hipc, h.iown i, howner, ho]
    cases p.holds <;> simp
  · by_cases hu : u = t
    · subst hu; rw [hpt, hwtt]
    · rw [hwt u hu, hpu u hu, h.wt u]
  · by_cases hu : u = t
    · subst hu; rw [hpt, hrett]
    · rw [(hret u hu).1, (hret u hu).2, hpu u hu, h.ret u]
  · by_cases hu : u = t
    · subst hu; rw [hpt, harrt]
    · rw [(harr u hu).1, (harr u hu).2, hpu u hu, h.arr u]
  · have := hd t
    rw [hpt] at this
    exact hfree this
  · by_cases hu : u = t
    · subst hu; rw [hpt]; exact hfields
    · rw [hpu u hu]
      exact fields_clean (h.clean ht hu) _ _ _ _
  · rw [hintr, haintr, h.intr_eq ht]
  · rw [hipc] at hi
    exact absurd hi (h.noInt ht i)

/-- A step from outside: `t` locks the mutex or is woken. -/
theorem enter (h : FBar.Rel f a) {t : Fin N} {p : BarPc} {f' : FBar N M} {a' : BarSys N}
    (hpc : f'.pc = Function.update f.pc t p) (hipc : f'.ipc = f.ipc) (hold : (f.pc t).holds = false)
    (howner : f'.owner = if p.holds then some (.inl t) else f.owner) (hh : p.holds = true → f.owner = none)
    (hc : f'.count = f.count ∧ f'.gen = f.gen ∧ f'.intr = f.intr)
    (hac : a'.bar.count = a.bar.count ∧ a'.bar.gen = a.bar.gen ∧ a'.bar.intr = a.bar.intr)
    (hwt : ∀ u, u ≠ t → a'.bar.wt u = a.bar.wt u) (hwtt : a'.bar.wt t = p.co)
    (hret : a'.ret = a.ret ∧ f'.ret = f.ret) (hleft : p.left = (f.pc t).left)
    (harr : ∀ u, u ≠ t → a'.arr u = a.arr u ∧ f'.arr u = f.arr u) (harrt : f'.arr t = a'.arr t + p.pre)
    (hdirty : p.dirty = false) : FBar.Rel f' a' := by
  have hpt : f'.pc t = p := by rw [hpc, Function.update_self]
  have hpu : ∀ u, u ≠ t → f'.pc u = f.pc u := fun u hu => by rw [hpc, Function.update_of_ne hu]
  have hnt : f.owner ≠ some (.inl t) := fun hx => by rw [(h.own t).2 hx] at hold; cases hold
  refine ⟨fun u => ?_, fun i => ?_, fun u => ?_, fun u => ?_, fun u => ?_, fun hd => ?_, fun u => ?_, fun hi => ?_, fun i hi => ?_⟩
  · by_cases hu : u = t
    · subst hu
      rw [hpt, howner]
      cases p.holds
      · simpa using hnt
      · simp
    · rw [hpu u hu, howner, h.own u]
      cases hp : p.holds
      · simp
      · rw [hh hp]; simp [Ne.symm hu]
  · rw [hipc, h.iown i, howner]
    cases hp : p.holds
    · simp
    · rw [hh hp]; simp
  · by_cases hu : u = t
    · subst hu; rw [hpt, hwtt]
    · rw [hwt u hu, hpu u hu, h.wt u]
  · rw [hret.1, hret.2, h.ret u]
    by_cases hu : u = t
    · subst hu; rw [hpt, hleft]
    · rw [hpu u hu]
  · by_cases hu : u = t
    · subst hu; rw [hpt, harrt]
    · rw [(harr u hu).1, (harr u hu).2, hpu u hu, h.arr u]
  · rw [hc.1, hc.2.1, hac.1, hac.2.1]
    refine h.free fun u => ?_
    by_cases hu : u = t
    · subst hu; exact not_dirty hold
    · rw [← hpu u hu]; exact hd u
  · by_cases hu : u = t
    · subst hu; rw [hpt]; exact fields_clean hdirty _ _ _ _
    · rw [hpu u hu, hc.1, hc.2.1, hac.1, hac.2.1]
      exact h.fields u
  · rw [hc.2.2, hac.2.2]
    exact h.ifree fun i => by rw [← hipc]; exact hi i
  · rw [hipc] at hi
    rw [hc.2.2]
    exact h.iset i hi

end FBar.Rel

theorem settle_fine {s : BarSys N} {t : Fin N} (u : Fin N) :
    (s.settle t).bar = s.bar ∧ (s.settle t).arr = s.arr ∧
      (s.settle t).ret u = s.ret u + (if u = t ∧ s.bar.wt t = .out then 1 else 0) := by
  unfold BarSys.settle
  split
  · rename_i h
    refine ⟨rfl, rfl, ?_⟩
    by_cases hu : u = t
    · subst hu; simp [h]
    · simp [hu]
  · rename_i h
    exact ⟨rfl, rfl, by simp [h]⟩


theorem FBar.rel_step {f f' : FBar N M} {a : BarSys N} (h : FBar.Rel f a) (hr : BarSys.Reach a) (hs : FBar.Step f f') :
    ∃ a', BarSys.Reach a' ∧ FBar.Rel f' a' := by
  cases hs with
  | @lock t ht ho =>
    refine ⟨a, hr, h.enter (p := .locked) rfl rfl (by rw [ht]; rfl) rfl (fun _ => ho) ⟨rfl, rfl, rfl⟩ ⟨rfl, rfl, rfl⟩ (fun _ _ => rfl) ?_ ⟨rfl, rfl⟩
      (by rw [ht]; rfl) (fun u hu => ⟨rfl, by simp [hu]⟩) ?_ rfl⟩
    · rw [h.wt t, ht]; rfl
    · have := h.arr t
      rw [ht] at this
      simp [BarPc.pre] at this ⊢
      omega
  | @countLast t ht hc =>
    have hh : (f.pc t).holds = true := by rw [ht]; rfl
    have hf := h.free_of hh (by rw [ht]; rfl)
    refine ⟨a, hr, h.move (p := .last) hh rfl rfl rfl rfl rfl (fun _ _ => rfl) ?_ (fun _ _ => ⟨rfl, rfl⟩) ?_ (fun _ _ => ⟨rfl, rfl⟩) ?_
      (fun hd => by cases hd) ?_⟩
    · rw [h.wt t, ht]; rfl
    · have := h.ret t; rw [ht] at this; exact this
    · have := h.arr t; rw [ht] at this; exact this
    · exact ⟨by rw [← hf.1], hf.2, by rw [← hf.1]; exact hc⟩
  | @countOther t ht hc =>
    have hh : (f.pc t).holds = true := by rw [ht]; rfl
    have hf := h.free_of hh (by rw [ht]; rfl)
    refine ⟨a, hr, h.move (p := .counted) hh rfl rfl rfl rfl rfl (fun _ _ => rfl) ?_ (fun _ _ => ⟨rfl, rfl⟩) ?_ (fun _ _ => ⟨rfl, rfl⟩) ?_
      (fun hd => by cases hd) ?_⟩
    · rw [h.wt t, ht]; rfl
    · have := h.ret t; rw [ht] at this; exact this
    · have := h.arr t; rw [ht] at this; exact this
    · exact ⟨by rw [← hf.1], hf.2, by rw [← hf.1]; exact hc⟩
  | @gen t ht =>
    have hh : (f.pc t).holds = true := by rw [ht]; rfl
    have hf := h.fields t
    rw [ht] at hf
    refine ⟨a, hr, h.move (p := .genned) hh rfl rfl rfl rfl rfl (fun _ _ => rfl) ?_ (fun _ _ => ⟨rfl, rfl⟩) ?_ (fun _ _ => ⟨rfl, rfl⟩) ?_
      (fun hd => by cases hd) ?_⟩
    · rw [h.wt t, ht]; rfl
    · have := h.ret t; rw [ht] at this; exact this
    · have := h.arr t; rw [ht] at this; exact this
    · exact ⟨hf.1, by rw [← hf.2.1], hf.2.2⟩
  | @zero t ht =>
    have hh : (f.pc t).holds = true := by rw [ht]; rfl
    have hf := h.fields t
    rw [ht] at hf
    refine ⟨a, hr, h.move (p := .zeroed) hh rfl rfl rfl rfl rfl (fun _ _ => rfl) ?_ (fun _ _ => ⟨rfl, rfl⟩) ?_ (fun _ _ => ⟨rfl, rfl⟩) ?_
      (fun hd => by cases hd) ?_⟩
    · rw [h.wt t, ht]; rfl
    · have := h.ret t; rw [ht] at this; exact this
    · have := h.arr t; rw [ht] at this; exact this
    · exact ⟨rfl, hf.2.1, hf.2.2⟩
  | @notify t ht =>
    have hh : (f.pc t).holds = true := by rw [ht]; rfl
    have hf := h.fields t
    rw [ht] at hf
    have hout : a.bar.wt t = .out := by rw [h.wt t, ht]; rfl
    refine ⟨_, hr.step (.arrive hout), ?_⟩
    have hb : a.bar.arrive t = ({ a.bar with count := 0, gen := a.bar.gen + 1 } : Bar N).notifyAll := by
      unfold Bar.arrive
      rw [if_pos hf.2.2]
    -- first everybody wakes up, then `t` moves
    have h1 : FBar.Rel { f with pc := fun u => (f.pc u).wake } { a with bar := a.bar.notifyAll } := by
      refine ⟨fun u => ?_, h.iown, fun u => ?_, fun u => ?_, fun u => ?_, fun hd => ?_, fun u => ?_, h.ifree, h.iset⟩
      · show ((f.pc u).wake).holds = true ↔ _
        rw [BarPc.holds_wake]; exact h.own u
      · show (a.bar.wt u).wake = ((f.pc u).wake).co
        rw [BarPc.co_wake, h.wt u]
      · show a.ret u = f.ret u + ((f.pc u).wake).left
        rw [BarPc.left_wake]; exact h.ret u
      · show f.arr u = a.arr u + ((f.pc u).wake).pre
        rw [BarPc.pre_wake]; exact h.arr u
      · exact h.free fun u => by rw [← BarPc.dirty_wake]; exact hd u
      · exact FBar.Rel.fields_wake (h.fields u)
    have hh1 : ((f.pc t).wake).holds = true := by rw [BarPc.holds_wake]; exact hh
    refine h1.move (t := t) (p := .leaving) hh1 rfl rfl rfl rfl ?_ (fun u hu => ?_) ?_ (fun u hu => ⟨?_, rfl⟩) ?_ (fun u hu => ⟨?_, rfl⟩) ?_ (fun _ => ?_) trivial
    · rw [(settle_fine t).1]; show (a.bar.arrive t).intr = _; rw [hb]; rfl
    · rw [(settle_fine t).1]; show (a.bar.arrive t).wt u = _; rw [hb]; rfl
    · rw [(settle_fine t).1]; show (a.bar.arrive t).wt t = _; rw [hb]
      show (a.bar.wt t).wake = _
      rw [hout]; rfl
    · rw [(settle_fine u).2.2]; simp [hu]
    · rw [(settle_fine t).2.2]
      have : (a.bar.arrive t).wt t = .out := by rw [hb]; show (a.bar.wt t).wake = _; rw [hout]; rfl
      have h2 := h.ret t
      rw [ht] at h2
      simp only [this, and_self, if_true]
      rw [h2]; rfl
    · rw [(settle_fine t).2.1]; simp [hu]
    · rw [(settle_fine t).2.1]
      have h2 := h.arr t
      rw [ht] at h2
      simp only [Function.update_self]
      exact h2
    · rw [(settle_fine t).1]; show f.count = (a.bar.arrive t).count ∧ f.gen = (a.bar.arrive t).gen; rw [hb]
      exact ⟨hf.1, hf.2.1⟩
  | @readGen t ht =>
    have hh : (f.pc t).holds = true := by rw [ht]; rfl
    have hf := h.fields t
    rw [ht] at hf
    refine ⟨a, hr, h.move (p := .fresh f.gen) hh rfl rfl rfl rfl rfl (fun _ _ => rfl) ?_ (fun _ _ => ⟨rfl, rfl⟩) ?_ (fun _ _ => ⟨rfl, rfl⟩) ?_
      (fun hd => by cases hd) ?_⟩
    · rw [h.wt t, ht]; rfl
    · have := h.ret t; rw [ht] at this; exact this
    · have := h.arr t; rw [ht] at this; exact this
    · exact ⟨hf.1, hf.2.1, hf.2.2, hf.2.1⟩
  | @predTrue t g ht hp =>
    rcases ht with ht | ht
    · have hh : (f.pc t).holds = true := by rw [ht]; rfl
      have hf := h.fields t
      rw [ht] at hf
      have hout : a.bar.wt t = .out := by rw [h.wt t, ht]; rfl
      have hi := h.intr_eq hh
      have hpa : Bar.pred a.bar a.bar.gen = true := by
        unfold FBar.pred at hp
        unfold Bar.pred
        rw [← hi, ← hf.2.1, hf.2.1, ← hf.2.2.2]
        rwa [hf.2.1, ← hf.2.2.2] at hp
      have hb : a.bar.arrive t = { a.bar with count := a.bar.count + 1 } := by
        unfold Bar.arrive
        rw [if_neg hf.2.2.1, if_pos hpa]
      refine ⟨_, hr.step (.arrive hout), h.move (p := .leaving) hh rfl rfl rfl rfl ?_ (fun u hu => ?_) ?_ (fun u hu => ⟨?_, rfl⟩) ?_ (fun u hu => ⟨?_, rfl⟩) ?_ (fun _ => ?_) trivial⟩
      · rw [(settle_fine t).1]; show (a.bar.arrive t).intr = _; rw [hb]
      · rw [(settle_fine t).1]; show (a.bar.arrive t).wt u = _; rw [hb]
      · rw [(settle_fine t).1]; show (a.bar.arrive t).wt t = _; rw [hb]; exact hout
      · rw [(settle_fine u).2.2]; simp [hu]
      · rw [(settle_fine t).2.2]
        have : (a.bar.arrive t).wt t = .out := by rw [hb]; exact hout
        have h2 := h.ret t
        rw [ht] at h2
        simp only [this, and_self, if_true]
        rw [h2]; rfl
      · rw [(settle_fine t).2.1]; simp [hu]
      · rw [(settle_fine t).2.1]
        have h2 := h.arr t
        rw [ht] at h2
        simp only [Function.update_self]
        exact h2
      · rw [(settle_fine t).1]; show f.count = (a.bar.arrive t).count ∧ f.gen = (a.bar.arrive t).gen; rw [hb]
        exact ⟨hf.1, hf.2.1⟩
    · have hh : (f.pc t).holds = true := by rw [ht]; rfl
      have hf := h.free_of hh (by rw [ht]; rfl)
      have haw : a.bar.wt t = .awake g := by rw [h.wt t, ht]; rfl
      have hi := h.intr_eq hh
      have hpa : Bar.pred a.bar g = true := by
        unfold FBar.pred at hp
        unfold Bar.pred
        rwa [← hi, ← hf.2]
      have hb : a.bar.recheck t g = { a.bar with wt := Function.update a.bar.wt t .out } := by
        unfold Bar.recheck
        rw [if_pos hpa]
      refine ⟨_, hr.step (.recheck haw), h.move (p := .leaving) hh rfl rfl rfl rfl ?_ (fun u hu => ?_) ?_ (fun u hu => ⟨?_, rfl⟩) ?_ (fun u hu => ⟨?_, rfl⟩) ?_ (fun _ => ?_) trivial⟩
      · rw [(settle_fine t).1]; show (a.bar.recheck t g).intr = _; rw [hb]
      · rw [(settle_fine t).1]; show (a.bar.recheck t g).wt u = _; rw [hb]; simp [hu]
      · rw [(settle_fine t).1]; show (a.bar.recheck t g).wt t = _; rw [hb]; simp [BarPc.co]
      · rw [(settle_fine u).2.2]; simp [hu]
      · rw [(settle_fine t).2.2]
        have : (a.bar.recheck t g).wt t = .out := by rw [hb]; simp
        have h2 := h.ret t
        rw [ht] at h2
        simp only [this, and_self, if_true]
        rw [h2]; rfl
      · rw [(settle_fine t).2.1]
      · rw [(settle_fine t).2.1]
        have h2 := h.arr t
        rw [ht] at h2
        exact h2
      · rw [(settle_fine t).1]; show f.count = (a.bar.recheck t g).count ∧ f.gen = (a.bar.recheck t g).gen; rw [hb]
        exact hf
  | @predFalse t g ht hp =>
    rcases ht with ht | ht
    · have hh : (f.pc t).holds = true := by rw [ht]; rfl
      have hf := h.fields t
      rw [ht] at hf
      have hout : a.bar.wt t = .out := by rw [h.wt t, ht]; rfl
      have hi := h.intr_eq hh
      have hpa : Bar.pred a.bar a.bar.gen = false := by
        unfold FBar.pred at hp
        unfold Bar.pred
        rw [← hi]
        rwa [hf.2.1, hf.2.2.2] at hp
      have hb : a.bar.arrive t = { a.bar with count := a.bar.count + 1, wt := Function.update a.bar.wt t (.asleep g) } := by
        unfold Bar.arrive
        rw [if_neg hf.2.2.1, if_neg (by simp [hpa]), hf.2.2.2]
      refine ⟨_, hr.step (.arrive hout), h.move (p := .asleep g) hh rfl rfl rfl rfl ?_ (fun u hu => ?_) ?_ (fun u hu => ⟨?_, rfl⟩) ?_ (fun u hu => ⟨?_, rfl⟩) ?_ (fun _ => ?_) trivial⟩
      · rw [(settle_fine t).1]; show (a.bar.arrive t).intr = _; rw [hb]
      · rw [(settle_fine t).1]; show (a.bar.arrive t).wt u = _; rw [hb]; simp [hu]
      · rw [(settle_fine t).1]; show (a.bar.arrive t).wt t = _; rw [hb]; simp [BarPc.co]
      · rw [(settle_fine u).2.2]; simp [hu]
      · rw [(settle_fine t).2.2]
        have : (a.bar.arrive t).wt t = .asleep g := by rw [hb]; simp
        have h2 := h.ret t
        rw [ht] at h2
        simp only [this, reduceCtorEq, and_false, if_false]
        rw [h2]; rfl
      · rw [(settle_fine t).2.1]; simp [hu]
      · rw [(settle_fine t).2.1]
        have h2 := h.arr t
        rw [ht] at h2
        simp only [Function.update_self]
        exact h2
      · rw [(settle_fine t).1]; show f.count = (a.bar.arrive t).count ∧ f.gen = (a.bar.arrive t).gen; rw [hb]
        exact ⟨hf.1, hf.2.1⟩
    · have hh : (f.pc t).holds = true := by rw [ht]; rfl
      have hf := h.free_of hh (by rw [ht]; rfl)
      have haw : a.bar.wt t = .awake g := by rw [h.wt t, ht]; rfl
      have hi := h.intr_eq hh
      have hpa : Bar.pred a.bar g = false := by
        unfold FBar.pred at hp
        unfold Bar.pred
        rwa [← hi, ← hf.2]
      have hb : a.bar.recheck t g = { a.bar with wt := Function.update a.bar.wt t (.asleep g) } := by
        unfold Bar.recheck
        rw [if_neg (by simp [hpa])]
      refine ⟨_, hr.step (.recheck haw), h.move (p := .asleep g) hh rfl rfl rfl rfl ?_ (fun u hu => ?_) ?_ (fun u hu => ⟨?_, rfl⟩) ?_ (fun u hu => ⟨?_, rfl⟩) ?_ (fun _ => ?_) trivial⟩
      · rw [(settle_fine t).1]; show (a.bar.recheck t g).intr = _; rw [hb]
      · rw [(settle_fine t).1]; show (a.bar.recheck t g).wt u = _; rw [hb]; simp [hu]
      · rw [(settle_fine t).1]; show (a.bar.recheck t g).wt t = _; rw [hb]; simp [BarPc.co]
      · rw [(settle_fine u).2.2]; simp [hu]
      · rw [(settle_fine t).2.2]
        have : (a.bar.recheck t g).wt t = .asleep g := by rw [hb]; simp
        have h2 := h.ret t
        rw [ht] at h2
        simp only [this, reduceCtorEq, and_false, if_false]
        rw [h2]; rfl
      · rw [(settle_fine t).2.1]
      · rw [(settle_fine t).2.1]
        have h2 := h.arr t
        rw [ht] at h2
        exact h2
      · rw [(settle_fine t).1]; show f.count = (a.bar.recheck t g).count ∧ f.gen = (a.bar.recheck t g).gen; rw [hb]
        exact hf
  | @relock t g ht ho =>
    refine ⟨a, hr, h.enter (p := .relocked g) rfl rfl (by rw [ht]; rfl) rfl (fun _ => ho) ⟨rfl, rfl, rfl⟩ ⟨rfl, rfl, rfl⟩ (fun _ _ => rfl) ?_ ⟨rfl, rfl⟩
      (by rw [ht]; rfl) (fun u hu => ⟨rfl, rfl⟩) ?_ rfl⟩
    · rw [h.wt t, ht]; rfl
    · have := h.arr t; rw [ht] at this; exact this
  | @unlock t ht =>
    have hh : (f.pc t).holds = true := by rw [ht]; rfl
    have hf := h.free_of hh (by rw [ht]; rfl)
    refine ⟨a, hr, h.move (p := .out) hh rfl rfl rfl rfl rfl (fun _ _ => rfl) ?_ (fun u hu => ⟨rfl, by simp [hu]⟩) ?_ (fun _ _ => ⟨rfl, rfl⟩) ?_
      (fun _ => hf) trivial⟩
    · rw [h.wt t, ht]; rfl
    · have := h.ret t; rw [ht] at this; simp only [Function.update_self]; exact this
    · have := h.arr t; rw [ht] at this; exact this
  | @spurious t g ht =>
    have has : a.bar.wt t = .asleep g := by rw [h.wt t, ht]; rfl
    refine ⟨_, hr.step (.spurious has), h.enter (p := .woken g) rfl rfl (by rw [ht]; rfl) rfl (fun hc => by cases hc) ⟨rfl, rfl, rfl⟩ ⟨rfl, rfl, rfl⟩
      (fun u hu => ?_) ?_ ⟨rfl, rfl⟩ (by rw [ht]; rfl) (fun u hu => ⟨rfl, rfl⟩) ?_ rfl⟩
    · simp [Bar.spurious, hu]
    · simp [Bar.spurious, has, BWait.wake, BarPc.co]
    · have := h.arr t; rw [ht] at this; exact this
  | @intLock i hi ho =>
    refine ⟨a, hr, fun u => ?_, fun j => ?_, h.wt, h.ret, h.arr, h.free, h.fields, fun hd => ?_, fun j hj => ?_⟩
    · rw [h.notHolds ho u]; simp
    · by_cases hj : j = i
      · subst hj; simp [IntPc.holds]
      · have := h.iown j
        rw [ho] at this
        simp only [Function.update_of_ne hj, this]
        simp [Ne.symm hj]
    · refine h.ifree fun j hj => ?_
      by_cases hji : j = i
      · subst hji; rw [hi] at hj; cases hj
      · have := hd j
        simp only [Function.update_of_ne hji] at this
        exact this hj
    · by_cases hji : j = i
      · subst hji; simp at hj
      · simp only [Function.update_of_ne hji] at hj
        exact h.iset j hj
  | @intSet i hi =>
    have ho := (h.iown i).1 (by rw [hi]; rfl)
    refine ⟨a, hr, h.own, fun j => ?_, h.wt, h.ret, h.arr, h.free, h.fields, fun hd => ?_, fun j hj => rfl⟩
    · by_cases hj : j = i
      · subst hj; simp [IntPc.holds, ho]
      · simp only [Function.update_of_ne hj]; exact h.iown j
    · exact absurd (by simp) (hd i)
  | @intNotify i hi =>
    have ho := (h.iown i).1 (by rw [hi]; rfl)
    refine ⟨_, hr.step .interrupt, fun u => ?_, fun j => ?_, fun u => ?_, fun u => ?_, fun u => ?_, fun hd => ?_, fun u => ?_, fun hd => ?_, fun j hj => ?_⟩
    · show ((f.pc u).wake).holds = true ↔ _
      rw [BarPc.holds_wake]; exact h.own u
    · by_cases hj : j = i
      · subst hj; simp [IntPc.holds, ho]
      · simp only [Function.update_of_ne hj]; exact h.iown j
    · show (a.bar.wt u).wake = ((f.pc u).wake).co
      rw [BarPc.co_wake, h.wt u]
    · show a.ret u = f.ret u + ((f.pc u).wake).left
      rw [BarPc.left_wake]; exact h.ret u
    · show f.arr u = a.arr u + ((f.pc u).wake).pre
      rw [BarPc.pre_wake]; exact h.arr u
    · exact h.free fun u => by rw [← BarPc.dirty_wake]; exact hd u
    · exact FBar.Rel.fields_wake (h.fields u)
    · exact h.iset i hi
    · exact h.iset i hi
  | @intUnlock i hi =>
    have ho := (h.iown i).1 (by rw [hi]; rfl)
    refine ⟨a, hr, fun u => ?_, fun j => ?_, h.wt, h.ret, h.arr, h.free, h.fields, fun hd => ?_, fun j hj => ?_⟩
    · rw [h.own u, ho]; simp
    · by_cases hj : j = i
      · subst hj; simp [IntPc.holds]
      · have := h.iown j
        rw [ho] at this
        simp only [Function.update_of_ne hj, this]
        simp [Ne.symm hj]
    · refine h.ifree fun j hj => ?_
      by_cases hji : j = i
      · subst hji; rw [hi] at hj; cases hj
      · have := hd j
        simp only [Function.update_of_ne hji] at this
        exact this hj
    · by_cases hji : j = i
      · subst hji; simp at hj
      · simp only [Function.update_of_ne hji] at hj
        exact h.iset j hj

theorem FBar.rel {f : FBar N M} (h : f.Reach) : ∃ a, BarSys.Reach a ∧ FBar.Rel f a := by
  induction h with
  | init => exact ⟨_, .init, FBar.Rel.init⟩
  | step _ hs ih =>
    obtain ⟨a, hr, hrel⟩ := ih
    exact FBar.rel_step hrel hr hs

/-! ## Termination -/

/-- how far a thread is from the end of its call, at most -/
def BarPc.weight (N : Nat) : BarPc → Nat
  | .out => 0
  | .leaving => 1
  | .asleep _ => 2
  | .relocked _ => 3
  | .woken _ => 4
  | .fresh _ => 3
  | .counted => 4
  | .zeroed => 2 * N + 2
  | .genned => 2 * N + 3
  | .last => 2 * N + 4
  | .locked => 2 * N + 5

def IntPc.weight (N : Nat) : IntPc → Nat
  | .out => 0
  | .leaving => 1
  | .set => 2 * N + 2
  | .locked => 2 * N + 3

def FBar.weight (f : FBar N M) : Nat := ∑ t, (f.pc t).weight N + ∑ i, (f.ipc i).weight N

theorem barSum_update {n : Nat} {α : Type} (w : α → Nat) (p : Fin n → α) (t : Fin n) (x : α) :
    ∑ u, w (Function.update p t x u) + w (p t) = ∑ u, w (p u) + w x := by
  have h1 : ∀ u, w (Function.update p t x u) + (if u = t then w (p t) else 0) = w (p u) + (if u = t then w x else 0) := by
    intro u
    by_cases hu : u = t
    · subst hu; simp [Nat.add_comm]
    · simp [hu]
  have h2 := Finset.sum_congr (rfl : (Finset.univ : Finset (Fin n)) = Finset.univ) fun u _ => h1 u
  rw [Finset.sum_add_distrib, Finset.sum_add_distrib] at h2
  simpa using h2

theorem barSum_wake (p : Fin N → BarPc) : ∑ u, ((p u).wake).weight N ≤ ∑ u, (p u).weight N + 2 * N := by
  have h1 : ∀ u ∈ (Finset.univ : Finset (Fin N)), ((p u).wake).weight N ≤ (p u).weight N + 2 := by
    intro u _
    cases p u <;> simp [BarPc.wake, BarPc.weight]
  have h2 := Finset.sum_le_sum h1
  rw [Finset.sum_add_distrib] at h2
  simp at h2
  omega

theorem FBar.weight_lt {f f' : FBar N M} (h : FBar.Quiet f f') : f'.weight < f.weight := by
  obtain ⟨hs, h1, h2, h3⟩ := h
  have key : ∀ {t : Fin N} {p : BarPc} {f' : FBar N M}, f'.pc = Function.update f.pc t p → f'.ipc = f.ipc →
      p.weight N < (f.pc t).weight N → f'.weight < f.weight := by
    intro t p f' e1 e2 hlt
    have := barSum_update (BarPc.weight N) f.pc t p
    unfold FBar.weight
    rw [e1, e2]
    omega
  have ikey : ∀ {i : Fin M} {p : IntPc} {f' : FBar N M}, f'.ipc = Function.update f.ipc i p → f'.pc = f.pc →
      p.weight N < (f.ipc i).weight N → f'.weight < f.weight := by
    intro i p f' e1 e2 hlt
    have := barSum_update (IntPc.weight N) f.ipc i p
    unfold FBar.weight
    rw [e1, e2]
    omega
  cases hs with
  | @lock t ht ho => have := h1 t ht; simp at this
  | @countLast t ht hc => exact key rfl rfl (by rw [ht]; simp [BarPc.weight])
  | @countOther t ht hc => exact key rfl rfl (by rw [ht]; simp [BarPc.weight])
  | @gen t ht => exact key rfl rfl (by rw [ht]; simp [BarPc.weight])
  | @zero t ht => exact key rfl rfl (by rw [ht]; simp [BarPc.weight])
  | @notify t ht =>
    have e1 := barSum_update (BarPc.weight N) (fun u => (f.pc u).wake) t .leaving
    have e2 := barSum_wake f.pc
    have e3 : ((f.pc t).wake).weight N = 2 * N + 2 := by rw [ht]; rfl
    have e4 : BarPc.leaving.weight N = 1 := rfl
    unfold FBar.weight
    simp only [e3, e4] at e1 ⊢
    omega
  | @readGen t ht => exact key rfl rfl (by rw [ht]; simp [BarPc.weight])
  | @predTrue t g ht hp => exact key rfl rfl (by rcases ht with ht | ht <;> rw [ht] <;> simp [BarPc.weight])
  | @predFalse t g ht hp => exact key rfl rfl (by rcases ht with ht | ht <;> rw [ht] <;> simp [BarPc.weight])
  | @relock t g ht ho => exact key rfl rfl (by rw [ht]; simp [BarPc.weight])
  | @unlock t ht => exact key rfl rfl (by rw [ht]; simp [BarPc.weight])
  | @spurious t g ht => exact absurd rfl (h3 t g ht)
  | @intLock i hi ho => have := h2 i hi; simp at this
  | @intSet i hi => exact ikey rfl rfl (by rw [hi]; simp [IntPc.weight])
  | @intNotify i hi =>
    have e1 := barSum_update (IntPc.weight N) f.ipc i .leaving
    have e2 := barSum_wake f.pc
    have e3 : (f.ipc i).weight N = 2 * N + 2 := by rw [hi]; rfl
    have e4 : IntPc.leaving.weight N = 1 := rfl
    unfold FBar.weight
    simp only [e3, e4] at e1 ⊢
    omega
  | @intUnlock i hi => exact ikey rfl rfl (by rw [hi]; simp [IntPc.weight])

theorem FBar.weight_le (f : FBar N M) : f.weight ≤ (2 * N + 5) * (N + M) := by
  have h1 : ∀ t ∈ (Finset.univ : Finset (Fin N)), (f.pc t).weight N ≤ 2 * N + 5 := by
    intro t _
    cases f.pc t <;> simp [BarPc.weight] <;> omega
  have h2 : ∀ t ∈ (Finset.univ : Finset (Fin M)), (f.ipc t).weight N ≤ 2 * N + 5 := by
    intro t _
    cases f.ipc t <;> simp [IntPc.weight]
  have h3 := Finset.sum_le_card_nsmul _ _ _ h1
  have h4 := Finset.sum_le_card_nsmul _ _ _ h2
  simp only [Finset.card_univ, Fintype.card_fin, smul_eq_mul] at h3 h4
  unfold FBar.weight
  rw [Nat.mul_add, Nat.mul_comm _ N, Nat.mul_comm _ M]
  omega

theorem FBar.run_weight {k : Nat} {f f' : FBar N M} (h : FBar.Run k f f') : f'.weight + k ≤ f.weight := by
  induction h with
  | nil => exact Nat.le_refl _
  | cons hq _ ih =>
    have := FBar.weight_lt hq
    omega

theorem FBar.run_reach {k : Nat} {f f' : FBar N M} (h : FBar.Run k f f') (hr : f.Reach) : f'.Reach := by
  induction h with
  | nil => exact hr
  | cons hq _ ih => exact ih (.step hr hq.1)

theorem FBar.run_append {k j : Nat} {f f' f'' : FBar N M} (h : FBar.Run k f f') (h' : FBar.Run j f' f'') : FBar.Run (k + j) f f'' := by
  induction h with
  | nil => rwa [Nat.zero_add]
  | cons hq _ ih =>
    rw [Nat.add_right_comm]
    exact .cons hq (ih h')

/-- In a state without such steps nobody is inside. -/
theorem FBar.stuck {f : FBar N M} {a : BarSys N} (h : FBar.Rel f a) (hs : ∀ f', ¬ FBar.Quiet f f') :
    f.owner = none ∧ (∀ t, f.pc t = .out ∨ ∃ g, f.pc t = .asleep g) ∧ ∀ i, f.ipc i = .out := by
  have go : ∀ {t : Fin N} {p : BarPc} {f' : FBar N M}, FBar.Step f f' → f'.pc = Function.update f.pc t p → f'.ipc = f.ipc →
      f.pc t ≠ .out → (∀ g, f.pc t ≠ .asleep g) → f.pc t ≠ p → False := by
    intro t p f' hst e1 e2 h1 h2 h3
    refine hs f' ⟨hst, fun u hu => ?_, fun i hi => by rw [e2]; exact hi, fun u g hu he => ?_⟩
    · have : u ≠ t := by rintro rfl; exact h1 hu
      rw [e1, Function.update_of_ne this]; exact hu
    · have hut : t ≠ u := by rintro rfl; exact h2 g hu
      have h5 := congrFun (congrArg FBar.pc he) t
      rw [e1] at h5
      simp only [Function.update_self, Function.update_of_ne hut] at h5
      exact h3 h5.symm
  have igo : ∀ {i : Fin M} {p : IntPc} {f' : FBar N M}, FBar.Step f f' → f'.ipc = Function.update f.ipc i p →
      (∀ t, f.pc t = .out → f'.pc t = .out) → f.ipc i ≠ .out → f.ipc i ≠ p → False := by
    intro i p f' hst e1 e2 h1 h3
    refine hs f' ⟨hst, e2, fun j hj => ?_, fun u g hu he => ?_⟩
    · have : j ≠ i := by rintro rfl; exact h1 hj
      rw [e1, Function.update_of_ne this]; exact hj
    · have h5 := congrFun (congrArg FBar.ipc he) i
      rw [e1] at h5
      simp only [Function.update_self] at h5
      exact h3 h5.symm
  have hpc : ∀ t, f.pc t = .out ∨ (∃ g, f.pc t = .asleep g) ∨ ∃ g, f.pc t = .woken g := by
    intro t
    cases ht : f.pc t with
    | out => exact .inl rfl
    | asleep g => exact .inr (.inl ⟨g, rfl⟩)
    | woken g => exact .inr (.inr ⟨g, rfl⟩)
    | locked =>
      by_cases hc : f.count + 1 = N
      · exact (go (.countLast ht hc) rfl rfl (by simp [ht]) (by simp [ht]) (by simp [ht])).elim
      · exact (go (.countOther ht hc) rfl rfl (by simp [ht]) (by simp [ht]) (by simp [ht])).elim
    | last => exact (go (.gen ht) rfl rfl (by simp [ht]) (by simp [ht]) (by simp [ht])).elim
    | genned => exact (go (.zero ht) rfl rfl (by simp [ht]) (by simp [ht]) (by simp [ht])).elim
    | zeroed =>
      refine (hs _ ⟨.notify ht, fun u hu => ?_, fun i hi => hi, fun u g hu he => ?_⟩).elim
      · have : u ≠ t := by rintro rfl; rw [ht] at hu; cases hu
        simp [Function.update_of_ne this, hu, BarPc.wake]
      · have hut : t ≠ u := by rintro rfl; rw [ht] at hu; cases hu
        have h5 := congrFun (congrArg FBar.pc he) t
        simp only [Function.update_self, Function.update_of_ne hut, ht] at h5
        cases h5
    | counted => exact (go (.readGen ht) rfl rfl (by simp [ht]) (by simp [ht]) (by simp [ht])).elim
    | fresh g =>
      cases hp : f.pred g with
      | true => exact (go (.predTrue (.inl ht) hp) rfl rfl (by simp [ht]) (by simp [ht]) (by simp [ht])).elim
      | false => exact (go (.predFalse (.inl ht) hp) rfl rfl (by simp [ht]) (by simp [ht]) (by simp [ht])).elim
    | relocked g =>
      cases hp : f.pred g with
      | true => exact (go (.predTrue (.inr ht) hp) rfl rfl (by simp [ht]) (by simp [ht]) (by simp [ht])).elim
      | false => exact (go (.predFalse (.inr ht) hp) rfl rfl (by simp [ht]) (by simp [ht]) (by simp [ht])).elim
    | leaving => exact (go (.unlock ht) rfl rfl (by simp [ht]) (by simp [ht]) (by simp [ht])).elim
  have hi : ∀ i, f.ipc i = .out := by
    intro i
    cases hi : f.ipc i with
    | out => rfl
    | locked => exact (igo (.intSet hi) rfl (fun _ h => h) (by simp [hi]) (by simp [hi])).elim
    | set => exact (igo (.intNotify hi) rfl (fun t h => by simp [h, BarPc.wake]) (by simp [hi]) (by simp [hi])).elim
    | leaving => exact (igo (.intUnlock hi) rfl (fun _ h => h) (by simp [hi]) (by simp [hi])).elim
  have ho : f.owner = none := by
    cases ho : f.owner with
    | none => rfl
    | some x =>
      exfalso
      cases x with
      | inl t =>
        have := (h.own t).2 ho
        rcases hpc t with h1 | ⟨g, h1⟩ | ⟨g, h1⟩ <;> rw [h1] at this <;> cases this
      | inr i =>
        have := (h.iown i).2 ho
        rw [hi i] at this
        cases this
  refine ⟨ho, fun t => ?_, hi⟩
  rcases hpc t with h1 | h1 | ⟨g, h1⟩
  · exact .inl h1
  · exact .inr h1
  · exact (go (.relock h1 ho) rfl rfl (by simp [h1]) (by simp [h1]) (by simp [h1])).elim

end Lib842
