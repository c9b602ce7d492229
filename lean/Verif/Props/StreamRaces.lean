import Verif.Proofs.StreamRaces
import Mathlib.Logic.Relation
/-!
# Properties: data races of the streams

C65.  `s.acc (some t)` are the accesses to members of the stream that worker thread `t` can make
next, `s.acc none` those of the calls that the user may make.
-/

namespace Lib842.Props
open Lib842 Spec

variable {N : Nat} {E : Nat}

/-- C65 is false: the worker threads test `_quit` in `while (!_quit)` without the mutex, and the
destructor sets it.  So a program that destroys a stream whose threads have just been started, or
have just finished an operation, has a data race. -/
theorem C65_no_data_race_false (N : Nat) (hN : 0 < N) (E : Nat) :
    ¬ (∀ (s : CS N) (v : CMem), CReach (setEpoch E) s → ¬ RaceOn s.acc v) ∧
    ¬ (∀ (s : DS N) (v : DMem), DReach s → ¬ RaceOn s.acc v) := by
  constructor
  · intro h
    refine h (CS.init N) .quit .init ⟨some ⟨0, hN⟩, none, rd .quit, wrL .quit, ?_, ?_, .destroy rfl, rfl, rfl, .inr rfl, ?_⟩
    · intro hx; cases hx
    · exact List.mem_singleton.2 rfl
    · intro hx; cases hx.1
  · intro h
    refine h (DS.init N) .quit .init ⟨some ⟨0, hN⟩, none, rd .quit, wrL .quit, ?_, ?_, .destroy rfl, rfl, rfl, .inr rfl, ?_⟩
    · intro hx; cases hx
    · exact List.mem_singleton.2 rfl
    · intro hx; cases hx.1

/-- C65, compression stream: this is the only race.  What is missing from C65 is `_quit`; all other
members are never accessed in a race, also those that are accessed without the mutex. -/
theorem C65_comp_only_quit_partial (hE : EpochOk E) {s : CS N} (h : CReach (setEpoch E) s) (v : CMem) :
    RaceOn s.acc v ↔ v = .quit ∧ .destroy ∉ s.log ∧ ∃ t, (s.thr t).pc = .top := by
  have hq := creach_quit h
  constructor
  · intro hr
    obtain ⟨h1, h2, h3⟩ := comp_race (epochSetting_of hE) h hr
    refine ⟨h1, fun hd => ?_, h3⟩
    rw [hq.2 hd] at h2; cases h2
  · rintro ⟨rfl, hd, t, ht⟩
    refine ⟨some t, none, rd .quit, wrL .quit, (by intro hx; cases hx), ?_, .destroy ?_, rfl, rfl, .inr rfl, ?_⟩
    · show rd CMem.quit ∈ (s.thr t).pc.accs s.quit
      rw [ht]; exact List.mem_singleton.2 rfl
    · cases hq' : s.quit with
      | false => rfl
      | true => exact absurd (hq.1 hq') hd
    · intro hx; cases hx.1

/-- C65, decompression stream -/
theorem C65_decomp_only_quit_partial {s : DS N} (h : DReach s) (v : DMem) :
    RaceOn s.acc v ↔ v = .quit ∧ .destroy ∉ s.log ∧ ∃ t, (s.thr t).pc = .top := by
  have hq := dreach_quit h
  constructor
  · intro hr
    obtain ⟨h1, h2, h3⟩ := decomp_race h hr
    refine ⟨h1, fun hd => ?_, h3⟩
    rw [hq.2 hd] at h2; cases h2
  · rintro ⟨rfl, hd, t, ht⟩
    refine ⟨some t, none, rd .quit, wrL .quit, (by intro hx; cases hx), ?_, .destroy ?_, rfl, rfl, .inr rfl, ?_⟩
    · show rd DMem.quit ∈ (s.thr t).pc.accs s.quit
      rw [ht]; exact List.mem_singleton.2 rfl
    · cases hq' : s.quit with
      | false => rfl
      | true => exact absurd (hq.1 hq') hd
    · intro hx; cases hx.1

/-- C65: `start` writes the parameters of the operation before it takes the mutex.  From the time
it may be called, whatever the threads do until it takes the mutex, none of them accesses the
parameters. -/
theorem C65_comp_start_writes (hE : EpochOk E) {s s' : CS N} (h : CReach (setEpoch E) s) (hd : .destroy ∉ s.log)
    (hm : mayStart s.log)
    (hw : Relation.ReflTransGen (fun a b => (∃ t, CWork (setEpoch E) t a b) ∨ CSpurious a b) s s')
    (t : Fin N) (a : Access CMem) (ha : s'.acc (some t) a) :
    a.var ≠ .ptr ∧ a.var ≠ .size ∧ a.var ≠ .blockCallback ∧ a.var ≠ .epochLog := by
  have key : CReach (setEpoch E) s' ∧ mayStart s'.log ∧ s'.quit = false := by
    clear ha
    induction hw with
    | refl =>
      refine ⟨h, hm, ?_⟩
      cases hq' : s.quit with
      | false => rfl
      | true => exact absurd ((creach_quit h).1 hq') hd
    | tail _ hst ih =>
      obtain ⟨i1, i2, i3⟩ := ih
      rcases hst with ⟨u, hu⟩ | hu
      · refine ⟨.work i1 hu, mayStart_work hu i2, ?_⟩
        cases hu <;> exact i3
      · refine ⟨.spurious i1 hu, ?_, ?_⟩
        · cases hu <;> exact i2
        · cases hu <;> exact i3
  obtain ⟨k1, k2, k3⟩ := key
  obtain ⟨i1, i2⟩ := creach_start_idle (epochSetting_of hE) k1 k3 k2 t
  rcases CPc.accs_idle i1 i2 ha with h1 | h1 <;> rw [h1] <;> simp

theorem C65_decomp_start_writes {s s' : DS N} (h : DReach s) (hd : .destroy ∉ s.log) (hm : dmayStart s.log)
    (hw : Relation.ReflTransGen (fun a b => (∃ t, DWork t a b) ∨ DSpurious a b) s s')
    (t : Fin N) (a : Access DMem) (ha : s'.acc (some t) a) : a.var ≠ .ptr := by
  have key : DReach s' ∧ dmayStart s'.log ∧ s'.quit = false := by
    clear ha
    induction hw with
    | refl =>
      refine ⟨h, hm, ?_⟩
      cases hq' : s.quit with
      | false => rfl
      | true => exact absurd ((dreach_quit h).1 hq') hd
    | tail _ hst ih =>
      obtain ⟨i1, i2, i3⟩ := ih
      rcases hst with ⟨u, hu⟩ | hu
      · refine ⟨.work i1 hu, dmayStart_work hu i2, ?_⟩
        cases hu <;> exact i3
      · refine ⟨.spurious i1 hu, ?_, ?_⟩
        · cases hu <;> exact i2
        · cases hu <;> exact i3
  obtain ⟨k1, k2, k3⟩ := key
  obtain ⟨i1, i2⟩ := dreach_start_idle k1 k3 k2 t
  rcases DPc.accs_idle i1 i2 ha with h1 | h1 <;> rw [h1] <;> simp

/-- A thread that reads the size of a running operation without the mutex while the user may call
`finalize`: no race. -/
example : ∃ s : CS 2, CReach (setEpoch 0) s ∧ s.acc (some 0) (rd .size) ∧ s.acc none (wrL .finalizing) ∧
    ¬ RaceOn s.acc .size := by
  have h1 : CReach (setEpoch 0) (CS.init 2) := .init
  have h2 := CReach.user h1 (.start (size := 5000000) rfl (.inl rfl) (by decide))
  have h3 := CReach.work h2 (.topGo (t := 0) rfl rfl)
  have h4 := CReach.work h3 (.trigGo (t := 0) rfl (.inl (by decide)))
  refine ⟨_, h4, List.mem_singleton.2 rfl, .finalize rfl ⟨rfl, by decide⟩ (by decide), ?_⟩
  rw [C65_comp_only_quit_partial (.inl rfl) h4]
  rintro ⟨h, -⟩
  cases h

end Lib842.Props
