import Verif.SpecInterleave
import Verif.Proofs.ErrCodes
import Verif.Proofs.Words
import Verif.Proofs.StreamBlock
/-!
# Work items with disjoint slots do not notice each other
-/

namespace Lib842
open Spec

/-- The computation, on a slot, ends with `a` and leaves `y` in the slot, whatever is outside the slot and however
that changes; reads may go beyond the slot, up to `lim`, if what is read there does not matter. -/
inductive Does {α : Type} (lim : Nat) : MemProg α → List Byte → α → List Byte → Prop
  | ret {a : α} {b : List Byte} : Does lim (.ret a) b a b
  | read {i k : Nat} {f : List Byte → MemProg α} {b bs y : List Byte} {a : α} : readBytes b i k = some bs →
      Does lim (f bs) b a y → Does lim (.read i k f) b a y
  | over {i k : Nat} {f : List Byte → MemProg α} {b y : List Byte} {a : α} : i + k ≤ lim →
      (∀ bs, bs.length = k → Does lim (f bs) b a y) → Does lim (.read i k f) b a y
  | write {i : Nat} {bs b b' y : List Byte} {m : MemProg α} {a : α} : writeBytes b i bs = some b' →
      Does lim m b' a y → Does lim (.write i bs m) b a y

theorem Does.of_run {α : Type} (lim : Nat) {m : MemProg α} {b y : List Byte} {a : α} (h : m.run b = some (a, y)) :
    Does lim m b a y := by
  induction m generalizing b with
  | ret a' => simp only [MemProg.run, Option.some.injEq, Prod.mk.injEq] at h; obtain ⟨rfl, rfl⟩ := h; exact .ret
  | ub => cases h
  | read i k f ih =>
    simp only [MemProg.run] at h
    cases hr : readBytes b i k with
    | none => rw [hr] at h; cases h
    | some bs => rw [hr] at h; exact .read hr (ih bs h)
  | write i bs m ih =>
    simp only [MemProg.run] at h
    cases hr : writeBytes b i bs with
    | none => rw [hr] at h; cases h
    | some b' => rw [hr] at h; exact .write hr (ih h)

theorem Does.inv {α : Type} {lim : Nat} {m : MemProg α} {b y : List Byte} {a : α} (h : Does lim m b a y) :
    match m with
    | .ret r => r = a ∧ b = y
    | .ub => False
    | .read i k f => (∃ bs, readBytes b i k = some bs ∧ Does lim (f bs) b a y) ∨
        (i + k ≤ lim ∧ ∀ bs, bs.length = k → Does lim (f bs) b a y)
    | .write i bs m => ∃ b', writeBytes b i bs = some b' ∧ Does lim m b' a y := by
  cases h with
  | ret => exact ⟨rfl, rfl⟩
  | read h1 h2 => exact .inl ⟨_, h1, h2⟩
  | over h1 h2 => exact .inr ⟨h1, h2⟩
  | write h1 h2 => exact ⟨_, h1, h2⟩

theorem memSlot_get (b : List Byte) (lo len j : Nat) : (memSlot b lo len)[j]? = if j < len then b[lo + j]? else none := by
  unfold memSlot
  rw [List.getElem?_take, List.getElem?_drop]

theorem memSlot_length {b : List Byte} {lo len : Nat} (h : lo + len ≤ b.length) : (memSlot b lo len).length = len := by
  unfold memSlot; rw [List.length_take, List.length_drop]; omega

theorem memSlot_congr {b b' : List Byte} {lo len : Nat} (h : ∀ j, lo ≤ j → j < lo + len → b[j]? = b'[j]?) :
    memSlot b lo len = memSlot b' lo len := by
  refine List.ext_getElem? fun j => ?_
  rw [memSlot_get, memSlot_get]
  split
  · exact h _ (by omega) (by omega)
  · rfl

theorem memSlot_read {b bs : List Byte} {lo len i k : Nat} (hl : lo + len ≤ b.length)
    (h : readBytes (memSlot b lo len) i k = some bs) : readBytes b (lo + i) k = some bs ∧ i + k ≤ len := by
  have hlen := memSlot_length hl
  by_cases h' : i + k ≤ len
  · rw [readBytes_ok (by omega)] at h
    cases h
    rw [readBytes_ok (by omega)]
    refine ⟨?_, h'⟩
    unfold memSlot
    rw [List.drop_take, List.take_take, List.drop_drop, Nat.min_eq_left (by omega)]
  · rw [readBytes_none (by omega)] at h; cases h

theorem memSlot_write {b bs v : List Byte} {lo len i : Nat} (hl : lo + len ≤ b.length)
    (h : writeBytes (memSlot b lo len) i bs = some v) :
    i + bs.length ≤ len ∧ ∃ b', writeBytes b (lo + i) bs = some b' ∧ memSlot b' lo len = v ∧ b'.length = b.length ∧
      ∀ j, (j < lo ∨ lo + len ≤ j) → b'[j]? = b[j]? := by
  have hlen := memSlot_length hl
  have hle : i + bs.length ≤ len := by
    unfold writeBytes at h
    split at h
    · omega
    · cases h
  obtain ⟨b', hb'⟩ := writeBytes_some (m := b) (bs := bs) (i := lo + i) (by omega)
  obtain ⟨h1, h2⟩ := writeBytes_get hb'
  obtain ⟨h3, h4⟩ := writeBytes_get h
  refine ⟨hle, b', hb', ?_, h1, fun j hj => ?_⟩
  · refine List.ext_getElem? fun j => ?_
    rw [memSlot_get, h4, memSlot_get, h2]
    by_cases hj : j < len
    · rw [if_pos hj, if_pos hj]
      by_cases hin : i ≤ j ∧ j < i + bs.length
      · rw [if_pos hin, if_pos (by omega)]
        congr 1; omega
      · rw [if_neg hin, if_neg (by omega)]
    · rw [if_neg hj, if_neg hj, if_neg (by omega)]
  · rw [h2, if_neg (by omega)]

/-- Where the slots of the work items are. -/
structure MemLayout (lo len lim : Nat → Nat) (n : Nat) : Prop where
  slot : ∀ t, lo t + len t ≤ n
  lim : ∀ t, lo t + lim t ≤ n
  disjoint : ∀ t u, t ≠ u → lo t + len t ≤ lo u ∨ lo u + len u ≤ lo t

structure MemInv {α : Type} (lo len lim : Nat → Nat) (a : Nat → α) (y : Nat → List Byte) (b₀ : List Byte)
    (s : MemSys α) : Prop where
  length : s.buf.length = b₀.length
  th : ∀ t, ∃ m, s.th t = m.shift (lo t) ∧ Does (lim t) m (memSlot s.buf (lo t) (len t)) (a t) (y t)
  frame : ∀ j, (∀ t, j < lo t ∨ lo t + len t ≤ j) → s.buf[j]? = b₀[j]?

section
variable {α : Type} {lo len lim : Nat → Nat} {a : Nat → α} {y : Nat → List Byte} {b₀ : List Byte}

theorem MemInv.step (hL : MemLayout lo len lim b₀.length) {s s' : MemSys α} (h : MemInv lo len lim a y b₀ s)
    (hs : MemStep s s') : MemInv lo len lim a y b₀ s' := by
  cases hs with
  | @read t i k f bs ht hr =>
    obtain ⟨m, hm, hd⟩ := h.th t
    rw [ht] at hm
    refine ⟨h.length, fun u => ?_, h.frame⟩
    by_cases hu : u = t
    · subst hu
      cases m with
      | ret => cases hm
      | ub => cases hm
      | write => cases hm
      | read i' k' f' =>
        simp only [MemProg.shift, MemProg.read.injEq] at hm
        obtain ⟨rfl, rfl, rfl⟩ := hm
        rcases hd.inv with ⟨bs', hr', hd'⟩ | ⟨_, hd'⟩
        · have := (memSlot_read (by rw [h.length]; exact hL.slot u) hr').1
          rw [this] at hr
          cases hr
          exact ⟨f' bs, by simp [MemSys.setTh], hd'⟩
        · exact ⟨f' bs, by simp [MemSys.setTh], hd' bs (by unfold readBytes at hr; split at hr <;> cases hr; simp; omega)⟩
    · obtain ⟨m', hm', hd'⟩ := h.th u
      exact ⟨m', by simp [MemSys.setTh, hu, hm'], hd'⟩
  | @write t i bs m b ht hw =>
    obtain ⟨m', hm, hd⟩ := h.th t
    rw [ht] at hm
    cases m' with
    | ret => cases hm
    | ub => cases hm
    | read => cases hm
    | write i' bs' m'' =>
      simp only [MemProg.shift, MemProg.write.injEq] at hm
      obtain ⟨rfl, rfl, rfl⟩ := hm
      obtain ⟨v, hw', hd'⟩ := hd.inv
      obtain ⟨_, b', h1, h2, h3, h4⟩ := memSlot_write (by rw [h.length]; exact hL.slot t) hw'
      rw [h1] at hw
      cases hw
      refine ⟨by rw [← h.length]; exact h3, fun u => ?_, fun j hj => ?_⟩
      · by_cases hu : u = t
        · subst hu
          exact ⟨m'', by simp [MemSys.setTh], by rw [← h2] at hd'; exact hd'⟩
        · obtain ⟨m', hm', hd''⟩ := h.th u
          refine ⟨m', by simp [MemSys.setTh, hu, hm'], ?_⟩
          have : memSlot b (lo u) (len u) = memSlot s.buf (lo u) (len u) :=
            memSlot_congr fun j hj1 hj2 => h4 j (by have := hL.disjoint t u (Ne.symm hu); omega)
          show Does _ _ (memSlot b (lo u) (len u)) _ _
          rw [this]
          exact hd''
      · show b[j]? = _
        rw [h4 j (hj t)]
        exact h.frame j hj

theorem MemInv.reach (hL : MemLayout lo len lim b₀.length) {s₀ s : MemSys α} (h₀ : MemInv lo len lim a y b₀ s₀)
    (h : MemReach s₀ s) : MemInv lo len lim a y b₀ s := by
  induction h with
  | init => exact h₀
  | step _ hs ih => exact ih.step hL hs

/-- The next access of a work item. -/
theorem MemInv.next (hL : MemLayout lo len lim b₀.length) {s : MemSys α} (h : MemInv lo len lim a y b₀ s) {t : Nat}
    {w : Bool} {i k : Nat} (ht : (s.th t).next = some (w, i, k)) :
    lo t ≤ i ∧ (i + k ≤ lo t + len t ∨ (w = false ∧ i + k ≤ lo t + lim t)) := by
  obtain ⟨m, hm, hd⟩ := h.th t
  rw [hm] at ht
  have hsl : lo t + len t ≤ s.buf.length := by rw [h.length]; exact hL.slot t
  cases m with
  | ret => cases ht
  | ub => cases ht
  | read i' k' f' =>
    simp only [MemProg.shift, MemProg.next, Option.some.injEq, Prod.mk.injEq] at ht
    obtain ⟨rfl, rfl, rfl⟩ := ht
    rcases hd.inv with ⟨bs', hr', hd'⟩ | ⟨hlim, hd'⟩
    · have := (memSlot_read hsl hr').2
      exact ⟨by omega, .inl (by omega)⟩
    · exact ⟨by omega, .inr ⟨rfl, by omega⟩⟩
  | write i' bs' m' =>
    simp only [MemProg.shift, MemProg.next, Option.some.injEq, Prod.mk.injEq] at ht
    obtain ⟨rfl, rfl, rfl⟩ := ht
    obtain ⟨v, hw, _⟩ := hd.inv
    have := (memSlot_write hsl hw).1
    exact ⟨by omega, .inl (by omega)⟩

theorem MemInv.no_fault (hL : MemLayout lo len lim b₀.length) {s : MemSys α} (h : MemInv lo len lim a y b₀ s) :
    ¬ MemFault s := by
  rintro ⟨t, ht | ⟨w, i, k, ht, hb⟩⟩
  · obtain ⟨m, hm, hd⟩ := h.th t
    rw [ht] at hm
    cases m with
    | ub => exact hd.inv
    | ret => cases hm
    | read => cases hm
    | write => cases hm
  · have h1 := h.next hL ht
    have h2 := hL.slot t
    have h3 := hL.lim t
    rw [h.length] at hb
    omega

theorem MemInv.no_race (hL : MemLayout lo len lim b₀.length) (hlim : ∀ t, lim t ≤ len t) {s : MemSys α}
    (h : MemInv lo len lim a y b₀ s) : ¬ MemRace s := by
  rintro ⟨t, u, w, i, k, w', i', k', htu, ht, hu, -, j, hj⟩
  have h1 := h.next hL ht
  have h2 := h.next hL hu
  have h3 := hL.disjoint t u htu
  have h4 := hlim t
  have h5 := hlim u
  omega

/-- A work item that has ended has its result, and its slot is as if it had been alone. -/
theorem MemInv.ended {s : MemSys α} (h : MemInv lo len lim a y b₀ s) {t : Nat} {r : α} (ht : s.th t = .ret r) :
    r = a t ∧ memSlot s.buf (lo t) (len t) = y t := by
  obtain ⟨m, hm, hd⟩ := h.th t
  rw [ht] at hm
  cases m with
  | ret r' => simp only [MemProg.shift, MemProg.ret.injEq] at hm; rw [hm]; exact hd.inv
  | ub => cases hm
  | read => cases hm
  | write => cases hm

/-- A work item that has not ended can go on. -/
theorem MemStep.of_no_fault {s : MemSys α} (h : ¬ MemFault s) (t : Nat) :
    (∃ r, s.th t = .ret r) ∨ ∃ s', MemStep s s' := by
  cases ht : s.th t with
  | ret r => exact .inl ⟨r, rfl⟩
  | ub => exact absurd ⟨t, .inl ht⟩ h
  | read i k f =>
    by_cases hb : i + k ≤ s.buf.length
    · exact .inr ⟨_, .read ht (readBytes_ok hb)⟩
    · exact absurd ⟨t, .inr ⟨false, i, k, by rw [ht]; rfl, by omega⟩⟩ h
  | write i bs m =>
    by_cases hb : i + bs.length ≤ s.buf.length
    · obtain ⟨b', hb'⟩ := writeBytes_some hb
      exact .inr ⟨_, .write ht hb'⟩
    · exact absurd ⟨t, .inr ⟨true, i, bs.length, by rw [ht]; rfl, by omega⟩⟩ h

theorem MemReach.trans {s s' s'' : MemSys α} (h : MemReach s s') (h' : MemReach s' s'') : MemReach s s'' := by
  induction h' with
  | init => exact h
  | step _ hs ih => exact .step ih hs

/-- A work item that has ended stays so. -/
theorem MemReach.ret_stays {s s' : MemSys α} (h : MemReach s s') {t : Nat} {r : α} (ht : s.th t = .ret r) :
    s'.th t = .ret r := by
  induction h with
  | init => exact ht
  | step _ hs ih =>
    cases hs with
    | @read u i k f bs hu _ =>
      by_cases e : t = u
      · subst e; rw [ih] at hu; cases hu
      · simp [MemSys.setTh, e, ih]
    | @write u i bs m b hu _ =>
      by_cases e : t = u
      · subst e; rw [ih] at hu; cases hu
      · simp [MemSys.setTh, e, ih]

/-- One work item runs until it has ended, the others wait. -/
theorem MemReach.run_one (m : MemProg α) : ∀ {s : MemSys α} {t : Nat}, s.th t = m →
    (∀ s', MemReach s s' → ¬ MemFault s') →
    ∃ s', MemReach s s' ∧ (∃ r, s'.th t = .ret r) ∧ ∀ u, u ≠ t → s'.th u = s.th u := by
  induction m with
  | ret r => exact fun {s t} ht _ => ⟨s, .init, ⟨r, ht⟩, fun _ _ => rfl⟩
  | ub => exact fun {s t} ht hf => absurd ⟨t, .inl ht⟩ (hf s .init)
  | read i k f ih =>
    intro s t ht hf
    have hb : i + k ≤ s.buf.length := by
      by_contra hb
      exact hf s .init ⟨t, .inr ⟨false, i, k, by rw [ht]; rfl, by omega⟩⟩
    have hs : MemStep s _ := .read ht (readBytes_ok hb)
    obtain ⟨s', h1, h2, h3⟩ := ih ((s.buf.drop i).take k) (s := s.setTh t (f ((s.buf.drop i).take k))) (t := t) (by simp [MemSys.setTh])
      (fun s' h => hf s' ((MemReach.step .init hs).trans h))
    exact ⟨s', (MemReach.step .init hs).trans h1, h2, fun u hu => by rw [h3 u hu]; simp [MemSys.setTh, hu]⟩
  | write i bs m ih =>
    intro s t ht hf
    have hb : i + bs.length ≤ s.buf.length := by
      by_contra hb
      exact hf s .init ⟨t, .inr ⟨true, i, bs.length, by rw [ht]; rfl, by omega⟩⟩
    obtain ⟨b', hb'⟩ := writeBytes_some hb
    have hs : MemStep s _ := .write ht hb'
    obtain ⟨s', h1, h2, h3⟩ := ih (s := { s with buf := b' }.setTh t m) (t := t) (by simp [MemSys.setTh])
      (fun s' h => hf s' ((MemReach.step .init hs).trans h))
    exact ⟨s', (MemReach.step .init hs).trans h1, h2, fun u hu => by rw [h3 u hu]; simp [MemSys.setTh, hu]⟩

/-- If nothing goes wrong, all work items end, whatever has happened so far. -/
theorem MemReach.run_all (n : Nat) {s : MemSys α} (hn : ∀ t, n ≤ t → ∃ r, s.th t = .ret r)
    (hf : ∀ s', MemReach s s' → ¬ MemFault s') : ∃ s', MemReach s s' ∧ MemDone s' := by
  induction n generalizing s with
  | zero => exact ⟨s, .init, fun t => hn t (Nat.zero_le _)⟩
  | succ n ih =>
    obtain ⟨s1, h1, h2, h3⟩ := MemReach.run_one (s.th n) rfl hf
    obtain ⟨s2, h4, h5⟩ := ih (s := s1)
      (fun t ht => by
        by_cases e : t = n
        · subst e; exact h2
        · rw [h3 t e]; exact hn t (by omega))
      (fun s' h => hf s' (h1.trans h))
    exact ⟨s2, h1.trans h4, h5⟩
/-- `k` accesses of a computation. -/
def MemProg.stepN : Nat → MemProg α → List Byte → Option (MemProg α × List Byte)
  | 0, m, b => some (m, b)
  | k + 1, .read i l f, b => (readBytes b i l).bind fun bs => MemProg.stepN k (f bs) b
  | k + 1, .write i bs m, b => (writeBytes b i bs).bind fun b => MemProg.stepN k m b
  | _ + 1, _, _ => none

theorem MemReach.stepN (k : Nat) {s : MemSys α} {t : Nat} {m : MemProg α} {b : List Byte}
    (h : MemProg.stepN k (s.th t) s.buf = some (m, b)) :
    ∃ s', MemReach s s' ∧ s'.buf = b ∧ s'.th t = m ∧ ∀ u, u ≠ t → s'.th u = s.th u := by
  induction k generalizing s with
  | zero =>
    simp only [MemProg.stepN, Option.some.injEq, Prod.mk.injEq] at h
    exact ⟨s, .init, h.2, h.1, fun _ _ => rfl⟩
  | succ k ih =>
    cases ht : s.th t with
    | ret r => rw [ht] at h; cases h
    | ub => rw [ht] at h; cases h
    | read i l f =>
      rw [ht] at h
      simp only [MemProg.stepN] at h
      cases hr : readBytes s.buf i l with
      | none => rw [hr] at h; cases h
      | some bs =>
        rw [hr] at h
        have hs : MemStep s _ := .read ht hr
        obtain ⟨s', h1, h2, h3, h4⟩ := ih (s := s.setTh t (f bs)) (by simpa [MemSys.setTh] using h)
        exact ⟨s', (MemReach.step .init hs).trans h1, h2, h3, fun u hu => by rw [h4 u hu]; simp [MemSys.setTh, hu]⟩
    | write i bs m' =>
      rw [ht] at h
      simp only [MemProg.stepN] at h
      cases hr : writeBytes s.buf i bs with
      | none => rw [hr] at h; cases h
      | some b' =>
        rw [hr] at h
        have hs : MemStep s _ := .write ht hr
        obtain ⟨s', h1, h2, h3, h4⟩ := ih (s := { s with buf := b' }.setTh t m') (by simpa [MemSys.setTh] using h)
        exact ⟨s', (MemReach.step .init hs).trans h1, h2, h3, fun u hu => by rw [h4 u hu]; simp [MemSys.setTh, hu]⟩
end

end Lib842
