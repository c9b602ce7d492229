import Verif.SpecClHost
import Verif.Proofs.Interleave
import Verif.Proofs.OclInterleave
import Mathlib.Data.List.Nodup
/-!
# A launch whose work items run at the same time
-/

namespace Lib842
open Spec

theorem Does.bind_ret {α β : Type} {lim : Nat} {m : MemProg α} {b y : List Byte} {a : α} (f : α → β) (h : Does lim m b a y) :
    Does lim (m.bind fun r => .ret (f r)) b (f a) y := by
  induction h with
  | ret => exact .ret
  | read hr _ ih => exact .read hr ih
  | over hl _ ih => exact .over hl ih
  | write hw _ ih => exact .write hw ih

/-- The chunk of a work item. -/
def chunkOfItem (shuffle : Option (List Nat)) (g : Nat) : Nat :=
  match shuffle with
  | none => g
  | some m => m.getD g 0

theorem chunkOfItem_some {n : Nat} {shuffle : Option (List Nat)} (hs : ∀ m, shuffle = some m → m.Perm (List.range n))
    {g : Nat} (hg : g < n) :
    itemChunk shuffle g = some (chunkOfItem shuffle g) := by
  cases shuffle with
  | none => rfl
  | some m =>
    have := (hs m rfl).length_eq
    rw [List.length_range] at this
    simp only [itemChunk, chunkOfItem, List.getD_eq_getElem?_getD]
    rw [List.getElem?_eq_getElem (by omega)]; rfl

theorem chunkOfItem_lt {n : Nat} {shuffle : Option (List Nat)} (hs : ∀ m, shuffle = some m → m.Perm (List.range n))
    {g : Nat} (hg : g < n) : chunkOfItem shuffle g < n := by
  cases shuffle with
  | none => exact hg
  | some m =>
    have h := hs m rfl
    have hl := h.length_eq
    rw [List.length_range] at hl
    simp only [chunkOfItem, List.getD_eq_getElem?_getD]
    rw [List.getElem?_eq_getElem (by omega)]
    have := h.mem_iff.1 (List.getElem_mem (l := m) (n := g) (by omega))
    simpa using this

theorem chunkOfItem_inj {n : Nat} {shuffle : Option (List Nat)} (hs : ∀ m, shuffle = some m → m.Perm (List.range n))
    {g g' : Nat} (hg : g < n) (hg' : g' < n) (h : chunkOfItem shuffle g = chunkOfItem shuffle g') : g = g' := by
  cases shuffle with
  | none => exact h
  | some m =>
    have hp := hs m rfl
    have hl := hp.length_eq
    rw [List.length_range] at hl
    simp only [chunkOfItem, List.getD_eq_getElem?_getD] at h
    rw [List.getElem?_eq_getElem (by omega), List.getElem?_eq_getElem (by omega)] at h
    have hn : m.Nodup := hp.nodup_iff.2 List.nodup_range
    exact (hn.getElem_inj_iff).1 h

theorem chunkOfItem_surj {n : Nat} {shuffle : Option (List Nat)} (hs : ∀ m, shuffle = some m → m.Perm (List.range n))
    {i : Nat} (hi : i < n) : ∃ g, g < n ∧ chunkOfItem shuffle g = i := by
  cases shuffle with
  | none => exact ⟨i, hi, rfl⟩
  | some m =>
    have hp := hs m rfl
    have hl := hp.length_eq
    rw [List.length_range] at hl
    obtain ⟨g, hg, he⟩ := List.getElem_of_mem (hp.mem_iff.2 (List.mem_range.2 hi))
    refine ⟨g, by omega, ?_⟩
    simp only [chunkOfItem, List.getD_eq_getElem?_getD]
    rw [List.getElem?_eq_getElem (by omega), he]; rfl

section
variable (e : Endian) (fmt : ClFormat) (c stride inOff outOff n : Nat) (inp : List Byte)
  (ilens olens : Option (List Nat)) (hc8 : c % 8 = 0) (buf : List Byte) (hbuf : 8 * (outOff / 8) + c * n ≤ buf.length)
  (lims : Nat → Nat) (rc : Nat → Option Errno) (len : Nat → Nat) (y : Nat → List Byte)
  (hitem : ∀ i, i < n →
    (fmt ≠ .inplace → 8 * (inOff / 8 + stride / 8 * i) ≤ inp.length) ∧
    (fmt = .inplace → 8 * (inOff / 8 + stride / 8 * i) = 8 * (outOff / 8) + c * i) ∧
    8 * (outOff / 8) + c * i + lims i ≤ buf.length ∧
    ∃ il ol, optAt ilens i = some il ∧ optAt olens i = some ol ∧
      Does (lims i) (oclItemP e fmt c (inp.drop (8 * (inOff / 8 + stride / 8 * i))) il ol)
        (chunkSlot buf c (8 * (outOff / 8)) i) (some (rc i, len i)) (y i))
  (shuffle : Option (List Nat)) (hs : ∀ m, shuffle = some m → m.Perm (List.range n))
include hc8 hbuf hitem hs

theorem oclSys_inv :
    let lo := fun g => if g < n then 8 * (outOff / 8) + c * chunkOfItem shuffle g else 0
    let ln := fun g => if g < n then c else 0
    let lm := fun g => if g < n then lims (chunkOfItem shuffle g) else 0
    MemLayout lo ln lm buf.length ∧
    MemInv lo ln lm
      (fun g => if g < n then
        some (chunkOfItem shuffle g, some (rc (chunkOfItem shuffle g), len (chunkOfItem shuffle g))) else none)
      (fun g => if g < n then y (chunkOfItem shuffle g) else []) buf
      (oclSys e fmt c stride inOff outOff inp ilens olens n shuffle buf) := by
  intro lo ln lm
  have hci : ∀ g, g < n → c * chunkOfItem shuffle g + c ≤ c * n := fun g hg => by
    rw [← Nat.mul_succ]; exact Nat.mul_le_mul_left _ (chunkOfItem_lt hs hg)
  refine ⟨⟨fun g => ?_, fun g => ?_, fun g g' hne => ?_⟩, ⟨rfl, fun g => ?_, fun _ _ => rfl⟩⟩
  · by_cases hg : g < n
    · have := hci g hg
      simp only [lo, ln, if_pos hg]; omega
    · simp only [lo, ln, if_neg hg]; omega
  · by_cases hg : g < n
    · simp only [lo, lm, if_pos hg]; exact (hitem _ (chunkOfItem_lt hs hg)).2.2.1
    · simp only [lo, lm, if_neg hg]; omega
  · by_cases hg : g < n
    · by_cases hg' : g' < n
      · simp only [lo, ln, if_pos hg, if_pos hg']
        have : chunkOfItem shuffle g ≠ chunkOfItem shuffle g' := fun h => hne (chunkOfItem_inj hs hg hg' h)
        rcases Nat.lt_or_gt_of_ne this with h | h
        · left
          have : c * chunkOfItem shuffle g + c ≤ c * chunkOfItem shuffle g' := by
            rw [← Nat.mul_succ]; exact Nat.mul_le_mul_left _ h
          omega
        · right
          have : c * chunkOfItem shuffle g' + c ≤ c * chunkOfItem shuffle g := by
            rw [← Nat.mul_succ]; exact Nat.mul_le_mul_left _ h
          omega
      · simp only [lo, ln, if_neg hg']; omega
    · simp only [lo, ln, if_neg hg]; omega
  · show ∃ m : MemProg _, oclWorkItemP e fmt c stride inOff outOff inp ilens olens n shuffle g = m.shift (lo g) ∧ _
    unfold oclWorkItemP
    by_cases hg : g < n
    · rw [if_neg (by omega), chunkOfItem_some hs hg]
      obtain ⟨h1, h2, _, il, ol, h3, h4, h5⟩ := hitem _ (chunkOfItem_lt hs hg)
      simp only
      have hoo : 8 * (outOff / 8 + c / 8 * chunkOfItem shuffle g) = 8 * (outOff / 8) + c * chunkOfItem shuffle g := by
        rw [Nat.mul_add, ← Nat.mul_assoc]
        congr 2; omega
      rw [if_neg (by
        rintro (⟨h, h'⟩ | ⟨h, h'⟩)
        · have := h1 h; omega
        · rw [hoo] at h'; exact h' (h2 h)), h3, h4]
      simp only [if_pos hg, lo, ln, lm]
      refine ⟨_, by rw [hoo], ?_⟩
      exact h5.bind_ret (fun r => some (chunkOfItem shuffle g, r))
    · rw [if_pos (by omega)]
      refine ⟨.ret none, rfl, ?_⟩
      simp only [lo, ln, lm, if_neg hg]
      have : memSlot (oclSys e fmt c stride inOff outOff inp ilens olens n shuffle buf).buf 0 0 = [] := by
        simp [memSlot]
      rw [this]
      exact .ret

/-- Every interleaving of a launch whose work items keep to their slots. -/
theorem oclSys_reach {s : MemSys (Option (Nat × Option (Option Errno × Nat)))}
    (h : MemReach (oclSys e fmt c stride inOff outOff inp ilens olens n shuffle buf) s) :
    ((∀ i, i < n → lims i ≤ c) → ¬ MemRace s) ∧ ¬ MemFault s ∧ (∃ s', MemReach s s' ∧ MemDone s') ∧
    s.buf.length = buf.length ∧ s.buf.take (8 * (outOff / 8)) = buf.take (8 * (outOff / 8)) ∧
    s.buf.drop (8 * (outOff / 8) + c * n) = buf.drop (8 * (outOff / 8) + c * n) ∧
    (∀ g i r, s.th g = .ret (some (i, r)) → i < n ∧ r = some (rc i, len i) ∧
      chunkSlot s.buf c (8 * (outOff / 8)) i = y i) ∧
    (∀ g g' i r r', s.th g = .ret (some (i, r)) → s.th g' = .ret (some (i, r')) → g = g') ∧
    (MemDone s → ∀ i, i < n → ∃ g, s.th g = .ret (some (i, some (rc i, len i)))) := by
  obtain ⟨hL, hI⟩ := oclSys_inv e fmt c stride inOff outOff n inp ilens olens hc8 buf hbuf lims rc len y hitem shuffle hs
  have hi := hI.reach hL h
  have hended : ∀ g i r, s.th g = .ret (some (i, r)) → g < n ∧ chunkOfItem shuffle g = i ∧
      r = some (rc i, len i) ∧ chunkSlot s.buf c (8 * (outOff / 8)) i = y i := by
    intro g i r hg
    have h1 := hi.ended hg
    by_cases hgn : g < n
    · simp only [if_pos hgn, Option.some.injEq, Prod.mk.injEq] at h1
      obtain ⟨⟨h1, h2⟩, h3⟩ := h1
      subst h1
      exact ⟨hgn, rfl, h2, h3⟩
    · simp only [if_neg hgn] at h1
      cases h1.1
  refine ⟨fun hl => hi.no_race hL (fun g => ?_), hi.no_fault hL, ?_, hi.length, ?_, ?_, ?_, ?_, ?_⟩
  · by_cases hg : g < n
    · simp only [if_pos hg]; exact hl _ (chunkOfItem_lt hs hg)
    · simp only [if_neg hg]; omega
  · refine MemReach.run_all n ?_ (fun s' h' => (hi.reach hL h').no_fault hL)
    intro t ht
    refine ⟨none, h.ret_stays ?_⟩
    show oclWorkItemP e fmt c stride inOff outOff inp ilens olens n shuffle t = _
    unfold oclWorkItemP
    rw [if_pos ht]
  · refine List.ext_getElem? fun j => ?_
    rw [List.getElem?_take, List.getElem?_take]
    by_cases hj : j < 8 * (outOff / 8)
    · rw [if_pos hj, if_pos hj]
      refine hi.frame j fun g => ?_
      by_cases hg : g < n
      · simp only [if_pos hg]; omega
      · simp only [if_neg hg]; omega
    · rw [if_neg hj, if_neg hj]
  · refine List.ext_getElem? fun j => ?_
    rw [List.getElem?_drop, List.getElem?_drop]
    refine hi.frame _ fun g => ?_
    by_cases hg : g < n
    · have : c * chunkOfItem shuffle g + c ≤ c * n := by
        rw [← Nat.mul_succ]; exact Nat.mul_le_mul_left _ (chunkOfItem_lt hs hg)
      simp only [if_pos hg]; omega
    · simp only [if_neg hg]; omega
  · intro g i r hg
    obtain ⟨h1, h2, h3, h4⟩ := hended g i r hg
    exact ⟨h2 ▸ chunkOfItem_lt hs h1, h3, h4⟩
  · intro g g' i r r' hg hg'
    obtain ⟨h1, h2, -, -⟩ := hended g i r hg
    obtain ⟨h1', h2', -, -⟩ := hended g' i r' hg'
    exact chunkOfItem_inj hs h1 h1' (h2.trans h2'.symm)
  · intro hd i hi'
    obtain ⟨g, hg, hgi⟩ := chunkOfItem_surj hs hi'
    obtain ⟨r, hr⟩ := hd g
    have := hi.ended hr
    simp only [if_pos hg, hgi] at this
    exact ⟨g, by rw [hr, this.1]⟩
end

end Lib842
