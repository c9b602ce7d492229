import Verif.Proofs.BarrierRefine
/-!
# Executions of the barrier, one access at a time, for the instances
-/

namespace Lib842
variable {N M : Nat}

theorem FBar.quiet_pc {b b' : FBar N M} {t : Fin N} {p : BarPc} (hst : FBar.Step b b') (e1 : b'.pc t = p)
    (e2 : ∀ u, b.pc u = .out → u ≠ t → b'.pc u = .out) (e3 : b'.ipc = b.ipc)
    (h1 : b.pc t ≠ .out) (h2 : ∀ g, b.pc t ≠ .asleep g) (h3 : b.pc t ≠ p) : FBar.Quiet b b' := by
  refine ⟨hst, fun u hu => e2 u hu ?_, fun i hi => by rw [e3]; exact hi, fun u g hu he => ?_⟩
  · rintro rfl; exact h1 hu
  · have hut : t ≠ u := by rintro rfl; exact h2 g hu
    have h5 := congrFun (congrArg FBar.pc he) t
    rw [e1] at h5
    simp only [Function.update_of_ne hut] at h5
    exact h3 h5.symm

theorem FBar.quiet_ipc {b b' : FBar N M} {i : Fin M} {p : IntPc} (hst : FBar.Step b b') (e1 : b'.ipc = Function.update b.ipc i p)
    (e2 : ∀ t, b.pc t = .out → b'.pc t = .out) (h1 : b.ipc i ≠ .out) (h3 : b.ipc i ≠ p) : FBar.Quiet b b' := by
  refine ⟨hst, e2, fun j hj => ?_, fun u g hu he => ?_⟩
  · have : j ≠ i := by rintro rfl; exact h1 hj
    rw [e1, Function.update_of_ne this]; exact hj
  · have h5 := congrFun (congrArg FBar.ipc he) i
    rw [e1] at h5
    simp only [Function.update_self] at h5
    exact h3 h5.symm

/-- The next access of thread `t` inside `arrive_and_wait` -/
def FBar.next (b : FBar N M) (t : Fin N) : Option (FBar N M) :=
  match b.pc t with
  | .out | .asleep _ => none
  | .locked =>
    if b.count + 1 = N then some { b with count := b.count + 1, pc := Function.update b.pc t .last }
    else some { b with count := b.count + 1, pc := Function.update b.pc t .counted }
  | .last => some { b with gen := b.gen + 1, pc := Function.update b.pc t .genned }
  | .genned => some { b with count := 0, pc := Function.update b.pc t .zeroed }
  | .zeroed => some { b with pc := Function.update (fun u => (b.pc u).wake) t .leaving }
  | .counted => some { b with pc := Function.update b.pc t (.fresh b.gen) }
  | .fresh g =>
    if b.pred g = true then some { b with pc := Function.update b.pc t .leaving }
    else some { b with owner := none, pc := Function.update b.pc t (.asleep g) }
  | .relocked g =>
    if b.pred g = true then some { b with pc := Function.update b.pc t .leaving }
    else some { b with owner := none, pc := Function.update b.pc t (.asleep g) }
  | .woken g => if b.owner = none then some { b with owner := some (.inl t), pc := Function.update b.pc t (.relocked g) } else none
  | .leaving => some { b with owner := none, pc := Function.update b.pc t .out, ret := Function.update b.ret t (b.ret t + 1) }

theorem FBar.next_quiet {b b' : FBar N M} {t : Fin N} (h : b.next t = some b') : FBar.Quiet b b' := by
  have go : ∀ {p : BarPc} {b' : FBar N M}, FBar.Step b b' → b'.pc = Function.update b.pc t p → b'.ipc = b.ipc →
      b.pc t ≠ .out → (∀ g, b.pc t ≠ .asleep g) → b.pc t ≠ p → FBar.Quiet b b' := by
    intro p b' hst e1 e3 h1 h2 h3
    exact FBar.quiet_pc hst (by rw [e1, Function.update_self]) (fun u hu hut => by rw [e1, Function.update_of_ne hut]; exact hu) e3 h1 h2 h3
  unfold FBar.next at h
  split at h <;> rename_i ht
  · cases h
  · cases h
  · split at h <;> rename_i hc <;> cases h
    · exact go (.countLast ht hc) rfl rfl (by simp [ht]) (by simp [ht]) (by simp [ht])
    · exact go (.countOther ht hc) rfl rfl (by simp [ht]) (by simp [ht]) (by simp [ht])
  · cases h; exact go (.gen ht) rfl rfl (by simp [ht]) (by simp [ht]) (by simp [ht])
  · cases h; exact go (.zero ht) rfl rfl (by simp [ht]) (by simp [ht]) (by simp [ht])
  · cases h
    refine FBar.quiet_pc (t := t) (p := .leaving) (.notify ht) (by simp) (fun u hu hut => ?_) rfl (by simp [ht]) (by simp [ht]) (by simp [ht])
    simp [Function.update_of_ne hut, hu, BarPc.wake]
  · cases h; exact go (.readGen ht) rfl rfl (by simp [ht]) (by simp [ht]) (by simp [ht])
  · split at h <;> rename_i hp <;> cases h
    · exact go (.predTrue (.inl ht) hp) rfl rfl (by simp [ht]) (by simp [ht]) (by simp [ht])
    · exact go (.predFalse (.inl ht) (by simpa using hp)) rfl rfl (by simp [ht]) (by simp [ht]) (by simp [ht])
  · split at h <;> rename_i hp <;> cases h
    · exact go (.predTrue (.inr ht) hp) rfl rfl (by simp [ht]) (by simp [ht]) (by simp [ht])
    · exact go (.predFalse (.inr ht) (by simpa using hp)) rfl rfl (by simp [ht]) (by simp [ht]) (by simp [ht])
  · split at h <;> rename_i ho <;> cases h
    exact go (.relock ht ho) rfl rfl (by simp [ht]) (by simp [ht]) (by simp [ht])
  · cases h; exact go (.unlock ht) rfl rfl (by simp [ht]) (by simp [ht]) (by simp [ht])

/-- The next access of caller `i` inside `interrupt` -/
def FBar.inext (b : FBar N M) (i : Fin M) : Option (FBar N M) :=
  match b.ipc i with
  | .out => none
  | .locked => some { b with intr := true, ipc := Function.update b.ipc i .set }
  | .set => some { b with pc := fun u => (b.pc u).wake, ipc := Function.update b.ipc i .leaving }
  | .leaving => some { b with owner := none, ipc := Function.update b.ipc i .out }

theorem FBar.inext_quiet {b b' : FBar N M} {i : Fin M} (h : b.inext i = some b') : FBar.Quiet b b' := by
  unfold FBar.inext at h
  split at h <;> rename_i hi <;> cases h
  · exact FBar.quiet_ipc (.intSet hi) rfl (fun _ h => h) (by simp [hi]) (by simp [hi])
  · exact FBar.quiet_ipc (.intNotify hi) rfl (fun t h => by simp [h, BarPc.wake]) (by simp [hi]) (by simp [hi])
  · exact FBar.quiet_ipc (.intUnlock hi) rfl (fun _ h => h) (by simp [hi]) (by simp [hi])

end Lib842
