import Verif.Model.CudaInterleave
import Verif.Proofs.OclLaunch
import Verif.Proofs.Cuda
/-!
# The step-by-step CUDA thread computes what the thread of `Verif.Model.Cuda` computes; launches
-/

namespace Lib842
open Spec

/-- The state without the buffer. -/
def CudaP.strip (p : CudaP) : CudaP := { p with buf := [] }

/-- Running `x` alone is running `y`; after a timeout nothing is said of the buffer. -/
def SimC {α : Type} (x : CM α) (y : M CudaP α) (p : CudaP) : Prop :=
  match y p with
  | .ok a p' => (x p.strip).run p.buf = some (.ok a p'.strip, p'.buf)
  | .err e p' => (x p.strip).run p.buf = some (.err e p'.strip, p'.buf)
  | .ub => (x p.strip).run p.buf = none
  | .timeout => ∃ b, (x p.strip).run p.buf = some (.timeout, b)

theorem CM.run_bind {α β : Type} (x : CM α) (f : α → CM β) (q : CudaP) (b : List Byte) :
    ((x >>= f) q).run b = match (x q).run b with
      | none => none
      | some (.ok a q, b) => (f a q).run b
      | some (.err e q, b) => some (.err e q, b)
      | some (.ub, _) => none
      | some (.timeout, b) => some (.timeout, b) := by
  show ((x q).bind _).run b = _
  rw [MemProg.run_bind]
  cases h : (x q).run b with
  | none => rfl
  | some r =>
    obtain ⟨o, b'⟩ := r
    cases o <;> rfl

theorem SimC.bind {α β : Type} {x : CM α} {y : M CudaP α} {f : α → CM β} {g : α → M CudaP β} {p : CudaP}
    (h : SimC x y p) (hf : ∀ a p', y p = .ok a p' → SimC (f a) (g a) p') : SimC (x >>= f) (y >>= g) p := by
  unfold SimC at h ⊢
  rw [M.bind_def, CM.run_bind]
  cases hy : y p with
  | ok a p' =>
    rw [hy] at h
    simp only at h ⊢
    rw [h]
    exact hf a p' hy
  | err e p' => rw [hy] at h; simp only at h ⊢; rw [h]
  | ub => rw [hy] at h; simp only at h ⊢; rw [h]
  | timeout =>
    rw [hy] at h
    obtain ⟨b, h⟩ := h
    simp only
    rw [h]
    exact ⟨b, rfl⟩

theorem SimC.pure {α : Type} (a : α) (p : CudaP) : SimC (Pure.pure a) (Pure.pure a) p := rfl
theorem SimC.get {β : Type} {f : CudaP → CM β} {g : CudaP → M CudaP β} {p : CudaP} (h : SimC (f p.strip) (g p) p) :
    SimC (CM.get >>= f) (M.get >>= g) p := h
theorem SimC.modify {f g : CudaP → CudaP} {p : CudaP} (h : f p.strip = (g p).strip) (hb : (g p).buf = p.buf) :
    SimC (CM.modify f) (M.modify g) p := by
  unfold SimC
  show some _ = some _
  rw [h, hb]

theorem SimC.opt {α : Type} {o : Option α} {g : CudaP → Option α} {p : CudaP} (h : g p = o) :
    SimC (CM.opt o) (M.access g) p := by
  unfold SimC M.access
  rw [h]
  cases o <;> rfl

theorem SimC.load {i k : Nat} {g : CudaP → Option (List Byte)} {p : CudaP} (h : g p = readBytes p.buf i k) :
    SimC (CM.load i k) (M.access g) p := by
  unfold SimC M.access
  rw [h]
  cases hr : readBytes p.buf i k with
  | none => simp only; unfold CM.load MemProg.run; rw [hr]
  | some bs => simp only; unfold CM.load MemProg.run; rw [hr]; rfl

theorem cudaReadBits_eq (n : Nat) (p : CudaP) : cudaReadBits n p =
    if p.bits < n then
      match (load64 .little p.inp (8 * p.word)).map swap64 with
      | none => .ub
      | some w => .ok ((if n ≤ 0 then 0#64 else p.buffer >>> (64 - n)) ||| w >>> (64 - (n - p.bits)))
          { p with word := p.word + 1
                   bits := p.bits + 64 - n
                   buffer := (w <<< (n - p.bits)) * (if p.bits + 64 - n > 0 then 1#64 else 0#64) }
    else .ok (if n ≤ 0 then 0#64 else p.buffer >>> (64 - n)) { p with bits := p.bits - n, buffer := p.buffer <<< n } := by
  unfold cudaReadBits
  by_cases h : p.bits < n
  · rw [if_pos h]
    show (if p.bits < n then _ else _ : M CudaP (BitVec 64)) p = _
    rw [if_pos h, M.bind_def]
    unfold M.access
    simp only
    cases (load64 .little p.inp (8 * p.word)).map swap64 <;> rfl
  · rw [if_neg h]
    show (if p.bits < n then _ else _ : M CudaP (BitVec 64)) p = _
    rw [if_neg h]; rfl

theorem simc_readBits (n : Nat) (p : CudaP) : SimC (CM.lift (cudaReadBits n)) (cudaReadBits n) p := by
  unfold SimC CM.lift
  rw [cudaReadBits_eq, cudaReadBits_eq]
  by_cases h : p.bits < n
  · have h' : p.strip.bits < n := h
    rw [if_pos h, if_pos h']
    rw [show p.strip.inp = p.inp from rfl, show p.strip.word = p.word from rfl]
    cases (load64 .little p.inp (8 * p.word)).map swap64 with
    | none => rfl
    | some w => rfl
  · have h' : ¬ p.strip.bits < n := h
    rw [if_neg h, if_neg h']
    rfl

theorem simc_load16 (offset : Nat) (p : CudaP) :
    SimC (cudaLoad16P offset) (M.access fun p => load16 .little p.buf offset) p := by
  unfold SimC M.access cudaLoad16P
  simp only
  rw [load16_read, CM.run_bind]
  unfold CM.load MemProg.run
  cases hr : readBytes p.buf offset 2 with
  | none => simp
  | some bs =>
    simp only [Option.bind_some, MemProg.run]
    cases load16 .little bs 0 <;> rfl

theorem simc_load (dst offset : Nat) (p : CudaP) : SimC (cudaLoadP dst offset) (cudaLoad dst offset) p := by
  unfold cudaLoadP cudaLoad
  refine SimC.bind (simc_load16 _ _) fun v0 p0 _ => ?_
  simp only
  split
  · refine SimC.bind (simc_load16 _ _) fun v1 p1 _ => ?_
    split
    · exact SimC.bind (simc_load16 _ _) fun _ _ _ => SimC.bind (simc_load16 _ _) fun _ _ _ =>
        SimC.bind (SimC.pure _ _) fun _ _ _ => SimC.pure _ _
    · exact SimC.bind (SimC.pure _ _) fun _ _ _ => SimC.pure _ _
  · exact SimC.bind (SimC.pure _ _) fun _ _ _ => SimC.pure _ _

theorem simc_field (t dst : Nat) (l : BitVec 64 × Nat) (p : CudaP) : SimC (cudaFieldP t dst l) (cudaField t dst l) p := by
  unfold cudaFieldP cudaField
  refine SimC.bind (simc_readBits _ _) fun value p1 _ => ?_
  simp only
  split
  · refine SimC.get (SimC.bind (SimC.opt rfl) fun fsize p2 _ => ?_)
    rw [show cudaGetIndex p1.strip = cudaGetIndex p1 from rfl]
    exact SimC.bind (simc_load _ _ _) fun _ _ _ => SimC.pure _ _
  · exact SimC.bind (SimC.pure _ _) fun _ _ _ => SimC.pure _ _

theorem simc_fields (fs : List (Nat × Nat)) (l : BitVec 64 × Nat) (p : CudaP) :
    SimC (cudaFieldsP fs l) (cudaFields fs l) p := by
  induction fs generalizing l p with
  | nil => exact SimC.pure _ _
  | cons f fs ih => exact SimC.bind (simc_field _ _ _ _) fun _ _ _ => ih _ _

theorem simc_put (bs : List Byte) (p : CudaP) : SimC (cudaPutP bs) (cudaPut bs) p := by
  unfold cudaPutP cudaPut
  show SimC (CM.store (8 * p.out) bs >>= fun _ => _) _ p
  refine SimC.bind ?_ fun _ _ _ => SimC.modify rfl rfl
  unfold SimC M.update CM.store
  simp only [MemProg.run]
  cases writeBytes p.buf (8 * p.out) bs <;> rfl

theorem simc_repeat (k : Nat) (p : CudaP) : SimC (cudaRepeatP k) (cudaRepeat k) p := by
  induction k generalizing p with
  | zero => exact SimC.pure _ _
  | succ k ih =>
    unfold cudaRepeatP cudaRepeat
    show SimC (if p.out = 0 then _ else _) _ p
    split
    · rename_i h
      exact SimC.bind (SimC.opt (if_pos h)) fun _ _ _ => SimC.bind (simc_put _ _) fun _ _ _ => ih _
    · rename_i h
      exact SimC.bind (SimC.load (if_neg h)) fun _ _ _ => SimC.bind (simc_put _ _) fun _ _ _ => ih _

theorem simc_iter (p : CudaP) : SimC cudaIterP cudaIter p := by
  unfold cudaIterP cudaIter
  refine SimC.bind (simc_readBits _ _) fun op p1 _ => ?_
  split
  · exact SimC.bind (simc_readBits _ _) fun rep p2 _ => SimC.bind (simc_repeat _ _) fun _ _ _ => SimC.pure _ _
  split
  · exact SimC.bind (simc_put _ _) fun _ _ _ => SimC.pure _ _
  split
  · exact SimC.pure _ _
  · exact SimC.bind (SimC.opt rfl) fun _ _ _ => SimC.bind (simc_fields _ _ _) fun _ _ _ =>
      SimC.bind (simc_put _ _) fun _ _ _ => SimC.pure _ _

theorem simc_doWhile {x : CM Bool} {y : M CudaP Bool} (h : ∀ p, SimC x y p) (fuel : Nat) (p : CudaP) :
    SimC (CM.doWhile x fuel) (M.doWhile y fuel) p := by
  induction fuel generalizing p with
  | zero => exact ⟨p.buf, rfl⟩
  | succ fuel ih =>
    unfold CM.doWhile M.doWhile
    refine SimC.bind (h p) fun done p' _ => ?_
    split
    · exact SimC.pure _ _
    · exact ih _

/-- A thread alone computes what `cudaThread` says. -/
theorem simc_thread (inp buf y : List Byte) :
    cudaThread inp buf = some y ↔ (cudaThreadP inp).run buf = some (true, y) := by
  unfold cudaThread cudaThreadP
  have h := simc_doWhile simc_iter (8 * inp.length + 1)
    { inp := inp, word := 0, buf := buf, out := 0, bits := 0, buffer := 0#64 }
  unfold SimC at h
  rw [MemProg.run_bind]
  cases hd : M.doWhile cudaIter (8 * inp.length + 1)
      { inp := inp, word := 0, buf := buf, out := 0, bits := 0, buffer := 0#64 } with
  | ok a p =>
    rw [hd] at h
    replace h : (CM.doWhile cudaIterP (8 * inp.length + 1)
      { inp := inp, word := 0, buf := [], out := 0, bits := 0, buffer := 0#64 }).run buf = some (.ok a p.strip, p.buf) := h
    rw [h]
    simp [MemProg.run]
  | err e p =>
    rw [hd] at h
    replace h : (CM.doWhile cudaIterP (8 * inp.length + 1)
      { inp := inp, word := 0, buf := [], out := 0, bits := 0, buffer := 0#64 }).run buf = some (.err e p.strip, p.buf) := h
    rw [h]
    simp [MemProg.run]
  | ub =>
    rw [hd] at h
    replace h : (CM.doWhile cudaIterP (8 * inp.length + 1)
      { inp := inp, word := 0, buf := [], out := 0, bits := 0, buffer := 0#64 }).run buf = none := h
    rw [h]
    simp
  | timeout =>
    rw [hd] at h
    obtain ⟨b, h⟩ := h
    replace h : (CM.doWhile cudaIterP (8 * inp.length + 1)
      { inp := inp, word := 0, buf := [], out := 0, bits := 0, buffer := 0#64 }).run buf = some (.timeout, b) := h
    rw [h]
    simp [MemProg.run]

section
variable (inp buf : List Byte) (n : Nat) (hn : n ≤ 2 ^ 25) (hbuf : 1024 * n ≤ buf.length) (y : Nat → List Byte)
  (hth : ∀ i, i < n → 2048 * (i % 2 ^ 24) ≤ inp.length ∧
    cudaThread (inp.drop (2048 * (i % 2 ^ 24))) (memSlot buf (1024 * i) 1024) = some (y i))
include hn hbuf hth

theorem cudaSys_inv :
    let lo := fun g => if g < n then 1024 * g else 0
    let ln := fun g => if g < n then 1024 else 0
    MemLayout lo ln ln buf.length ∧
    MemInv lo ln ln (fun _ => true) (fun g => if g < n then y g else []) buf (cudaSys inp n buf) := by
  intro lo ln
  refine ⟨⟨fun g => ?_, fun g => ?_, fun g g' hne => ?_⟩, ⟨rfl, fun g => ?_, fun _ _ => rfl⟩⟩
  · by_cases hg : g < n
    · simp only [lo, ln, if_pos hg]; omega
    · simp only [lo, ln, if_neg hg]; omega
  · by_cases hg : g < n
    · simp only [lo, ln, if_pos hg]; omega
    · simp only [lo, ln, if_neg hg]; omega
  · by_cases hg : g < n
    · by_cases hg' : g' < n
      · simp only [lo, ln, if_pos hg, if_pos hg']; omega
      · simp only [lo, ln, if_neg hg']; omega
    · simp only [lo, ln, if_neg hg]; omega
  · simp only [cudaSys]
    by_cases hg : g < n
    · have e1 : 8 * (cudaChunkSize / 8 * 2 * g % 2 ^ 32) = 2048 * (g % 2 ^ 24) := by
        show 8 * (1024 / 8 * 2 * g % 2 ^ 32) = _; omega
      have e2 : 8 * (cudaChunkSize / 8 * g % 2 ^ 32) = 1024 * g := by
        show 8 * (1024 / 8 * g % 2 ^ 32) = _; omega
      obtain ⟨h1, h2⟩ := hth g hg
      rw [if_neg (by omega), e1, e2, if_neg (by omega)]
      simp only [if_pos hg, lo, ln]
      exact ⟨_, rfl, Does.of_run _ ((simc_thread _ _ _).1 h2)⟩
    · rw [if_pos (by omega)]
      refine ⟨.ret true, rfl, ?_⟩
      simp only [lo, ln, if_neg hg]
      have : memSlot buf 0 0 = [] := by simp [memSlot]
      rw [this]
      exact .ret

/-- Every interleaving of a launch whose threads keep to their slots. -/
theorem cudaSys_reach {s : MemSys Bool} (h : MemReach (cudaSys inp n buf) s) :
    ¬ MemRace s ∧ ¬ MemFault s ∧ (∃ s', MemReach s s' ∧ MemDone s') ∧
    s.buf.length = buf.length ∧ s.buf.drop (1024 * n) = buf.drop (1024 * n) ∧
    (∀ g r, s.th g = .ret r → r = true ∧ (g < n → memSlot s.buf (1024 * g) 1024 = y g)) := by
  obtain ⟨hL, hI⟩ := cudaSys_inv inp buf n hn hbuf y hth
  have hi := hI.reach hL h
  refine ⟨hi.no_race hL (fun g => Nat.le_refl _), hi.no_fault hL, ?_, hi.length, ?_, ?_⟩
  · refine MemReach.run_all n ?_ (fun s' h' => (hi.reach hL h').no_fault hL)
    intro t ht
    refine ⟨true, h.ret_stays ?_⟩
    simp only [cudaSys]
    rw [if_pos ht]
  · refine List.ext_getElem? fun j => ?_
    rw [List.getElem?_drop, List.getElem?_drop]
    refine hi.frame _ fun g => ?_
    by_cases hg : g < n
    · simp only [if_pos hg]; omega
    · simp only [if_neg hg]; omega
  · intro g r hg
    have h1 := hi.ended hg
    refine ⟨h1.1, fun hgn => ?_⟩
    have h2 := h1.2
    simp only [if_pos hgn] at h2
    exact h2
end

/-- A computation that changes the buffer gets to a store, with the buffer as it was. -/
theorem MemProg.first_store {α : Type} (m : MemProg α) (b : List Byte) {a : α} {y : List Byte}
    (h : m.run b = some (a, y)) (hne : y ≠ b) :
    ∃ k i bs m', m.stepN k b = some (.write i bs m', b) := by
  induction m with
  | ret r => simp only [MemProg.run, Option.some.injEq, Prod.mk.injEq] at h; exact absurd h.2.symm hne
  | ub => cases h
  | read i k f ih =>
    simp only [MemProg.run] at h
    cases hr : readBytes b i k with
    | none => rw [hr] at h; cases h
    | some bs =>
      rw [hr] at h
      obtain ⟨n, i', bs', m', h1⟩ := ih bs h
      exact ⟨n + 1, i', bs', m', by simp only [MemProg.stepN, hr, Option.bind_some]; exact h1⟩
  | write i bs m _ => exact ⟨0, i, bs, m, rfl⟩

/-- The same with bytes stored. -/
theorem MemProg.first_change {α : Type} (m : MemProg α) (b : List Byte) {a : α} {y : List Byte}
    (h : m.run b = some (a, y)) (hne : y ≠ b) :
    ∃ k i bs m', m.stepN k b = some (.write i bs m', b) ∧ 0 < bs.length := by
  induction m with
  | ret r => simp only [MemProg.run, Option.some.injEq, Prod.mk.injEq] at h; exact absurd h.2.symm hne
  | ub => cases h
  | read i k f ih =>
    simp only [MemProg.run] at h
    cases hr : readBytes b i k with
    | none => rw [hr] at h; cases h
    | some bs =>
      rw [hr] at h
      obtain ⟨n, i', bs', m', h1, h2⟩ := ih bs h
      exact ⟨n + 1, i', bs', m', by simp only [MemProg.stepN, hr, Option.bind_some]; exact h1, h2⟩
  | write i bs m ih =>
    by_cases hb : 0 < bs.length
    · exact ⟨0, i, bs, m, rfl, hb⟩
    · have : bs = [] := List.length_eq_zero_iff.1 (by omega)
      subst this
      simp only [MemProg.run] at h
      cases hw : writeBytes b i [] with
      | none => rw [hw] at h; cases h
      | some b' =>
        rw [hw] at h
        have hb' : b' = b := by
          unfold writeBytes at hw
          split at hw
          · cases hw; simp
          · cases hw
        subst hb'
        obtain ⟨n, i', bs', m', h1, h2⟩ := ih h
        exact ⟨n + 1, i', bs', m', by simp only [MemProg.stepN, hw, Option.bind_some]; exact h1, h2⟩

theorem MemProg.shift_zero {α : Type} (m : MemProg α) : m.shift 0 = m := by
  induction m with
  | ret r => rfl
  | ub => rfl
  | read i k f ih => simp only [MemProg.shift, Nat.zero_add]; congr 1; funext bs; exact ih bs
  | write i bs m ih => simp only [MemProg.shift, Nat.zero_add, ih]

/-- Two threads with the same program race for its first store. -/
theorem MemRace.of_same {α : Type} {s : MemSys α} {t u : Nat} (htu : t ≠ u) (he : s.th t = s.th u) {a : α} {y : List Byte}
    (h : (s.th t).run s.buf = some (a, y)) (hne : y ≠ s.buf) : ∃ s', MemReach s s' ∧ MemRace s' := by
  obtain ⟨k, i, bs, m', h1, h2⟩ := MemProg.first_change _ _ h hne
  obtain ⟨s1, r1, b1, t1, u1⟩ := MemReach.stepN k h1
  have h3 : MemProg.stepN k (s1.th u) s1.buf = some (.write i bs m', s.buf) := by
    rw [u1 u (Ne.symm htu), b1, ← he]; exact h1
  obtain ⟨s2, r2, b2, t2, u2⟩ := MemReach.stepN k h3
  refine ⟨s2, r1.trans r2, t, u, true, i, bs.length, true, i, bs.length, htu, ?_, ?_, rfl, i, by omega⟩
  · rw [u2 t htu, t1]; rfl
  · rw [t2]; rfl

end Lib842
