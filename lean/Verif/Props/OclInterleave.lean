import Verif.Proofs.OclOverread
import Verif.Props.ClHost
/-!
# Property theorems for OpenCL work items that run at the same time (C82)
-/

namespace Lib842.Props
open Spec

/-- C82: a work item that runs alone, access by access, computes what the kernel of `Verif.Model.OclKernel` computes,
for every format and every input; the accesses at which others may interfere are therefore those of that kernel. -/
theorem C82_one_item (e : Endian) (fmt : ClFormat) (c : Nat) (inp buf : List Byte) (il ol : Option Nat) :
    (∀ rc m b, oclItem e fmt c inp buf il ol = .ret rc m b ↔
      (oclItemP e fmt c inp il ol).run buf = some (some (rc, m), b)) ∧
    (oclItem e fmt c inp buf il ol = .ub ↔ (oclItemP e fmt c inp il ol).run buf = none) := by
  have h := sim_item e fmt c inp buf il ol
  cases hc : oclItem e fmt c inp buf il ol with
  | ret rc m b =>
    rw [hc] at h
    replace h : _ = some (some (rc, m), b) := h
    rw [h]
    refine ⟨fun rc' m' b' => ?_, by simp⟩
    simp only [Call.ret.injEq, Option.some.injEq, Prod.mk.injEq]
    exact ⟨fun ⟨h1, h2, h3⟩ => ⟨⟨h1, h2⟩, h3⟩, fun ⟨⟨h1, h2⟩, h3⟩ => ⟨h1, h2, h3⟩⟩
  | ub =>
    rw [hc] at h
    replace h : _ = none := h
    rw [h]
    exact ⟨fun _ _ _ => by simp, by simp⟩
  | timeout =>
    rw [hc] at h
    obtain ⟨b, h⟩ := h
    rw [h]
    exact ⟨fun _ _ _ => by simp, by simp⟩

/-- A stream that yields more than 8 bytes (C57). -/
def exLong : List Byte :=
  [0x00, 0x08, 0x10, 0x18, 0x20, 0x28, 0x30, 0x38, 0x44, 0xc0, 0xc0, 0xc0, 0xc0, 0xfc] ++ List.replicate 10 0

/-- C82 is false as stated: a chunk that is not a stream for its slot makes its work item read the first bytes of the
next slot, at the same time as the work item of that one stores its data there.  Both arrays of sizes are given. -/
theorem C82_race_false : ∃ s, MemReach (oclSys .little .always 8 24 0 0 (exLong ++ exStream1) (some [24, 16])
    (some [8, 8]) 2 none (List.replicate 16 0)) s ∧ MemRace s := by
  obtain ⟨sys, hsys⟩ : ∃ sys, sys = oclSys .little .always 8 24 0 0 (exLong ++ exStream1) (some [24, 16])
    (some [8, 8]) 2 none (List.replicate 16 0) := ⟨_, rfl⟩
  rw [← hsys]
  have h0 : (MemProg.stepN 2 (sys.th 0) sys.buf).map (fun x => x.1.next) = some (some (false, 8, 2)) := by
    rw [hsys]; decide +kernel
  have h1 : (sys.th 1).next = some (true, 8, 8) := by rw [hsys]; decide +kernel
  cases hm : MemProg.stepN 2 (sys.th 0) sys.buf with
  | none => rw [hm] at h0; cases h0
  | some x =>
    obtain ⟨m, b⟩ := x
    rw [hm] at h0
    obtain ⟨s, hr, -, ht, hu⟩ := MemReach.stepN 2 hm
    refine ⟨s, hr, 0, 1, false, 8, 2, true, 8, 8, by decide, ?_, ?_, rfl, 8, by decide⟩
    · rw [ht]; simpa using h0
    · rw [hu 1 (by decide), h1]

/-- C82, partial, for every format: if each work item, given nothing but its own slot of the output, ends without
doing anything undefined, then no interleaving of all of them has a race or an access out of bounds, all of them end,
and each chunk has the result it would have alone.  Missing: chunks whose work item looks beyond its slot, see below. -/
theorem C82_alone_partial (e : Endian) (fmt : ClFormat) (c stride inOff outOff n : Nat) (inp buf : List Byte)
    (ilens olens : Option (List Nat)) (hc8 : c % 8 = 0) (hbuf : 8 * (outOff / 8) + c * n ≤ buf.length)
    (rc : Nat → Option Errno) (len : Nat → Nat) (y : Nat → List Byte)
    (hitem : ∀ i, i < n →
      (fmt ≠ .inplace → 8 * (inOff / 8 + stride / 8 * i) ≤ inp.length) ∧
      (fmt = .inplace → 8 * (inOff / 8 + stride / 8 * i) = 8 * (outOff / 8) + c * i) ∧
      ∃ il ol, optAt ilens i = some il ∧ optAt olens i = some ol ∧
        oclItem e fmt c (inp.drop (8 * (inOff / 8 + stride / 8 * i))) (chunkSlot buf c (8 * (outOff / 8)) i) il ol =
          .ret (rc i) (len i) (y i))
    (shuffle : Option (List Nat)) (hs : ∀ m, shuffle = some m → m.Perm (List.range n))
    {s : MemSys (Option (Nat × Option (Option Errno × Nat)))}
    (h : MemReach (oclSys e fmt c stride inOff outOff inp ilens olens n shuffle buf) s) :
    ¬ MemRace s ∧ ¬ MemFault s ∧ (∃ s', MemReach s s' ∧ MemDone s') ∧
    s.buf.length = buf.length ∧ s.buf.take (8 * (outOff / 8)) = buf.take (8 * (outOff / 8)) ∧
    s.buf.drop (8 * (outOff / 8) + c * n) = buf.drop (8 * (outOff / 8) + c * n) ∧
    (∀ g i r, s.th g = .ret (some (i, r)) → i < n ∧ r = some (rc i, len i) ∧
      chunkSlot s.buf c (8 * (outOff / 8)) i = y i) ∧
    (∀ g g' i r r', s.th g = .ret (some (i, r)) → s.th g' = .ret (some (i, r')) → g = g') ∧
    (MemDone s → ∀ i, i < n → ∃ g, s.th g = .ret (some (i, some (rc i, len i)))) := by
  obtain ⟨h1, h2⟩ := oclSys_reach e fmt c stride inOff outOff n inp ilens olens hc8 buf hbuf (fun _ => c) rc len y
    (fun i hi => by
      obtain ⟨k1, k2, il, ol, k3, k4, k5⟩ := hitem i hi
      have hci : c * i + c ≤ c * n := by rw [← Nat.mul_succ]; exact Nat.mul_le_mul_left _ hi
      exact ⟨k1, k2, by omega, il, ol, k3, k4, Does.of_run _ (((C82_one_item ..).1 _ _ _).1 k5)⟩)
    shuffle hs h
  exact ⟨h1 (fun _ _ => Nat.le_refl _), h2⟩

/-- What a launch with both arrays of sizes does to its chunks, whatever the interleaving. -/
theorem launch_done (e : Endian) (c stride inOff outOff n : Nat) (inp buf : List Byte) (ilens olens : List Nat)
    (hc8 : c % 8 = 0) (hil : ilens.length = n) (hol : olens.length = n)
    (hin : ∀ i il, ilens[i]? = some il → il % 8 = 0 ∧ 8 * (inOff / 8 + stride / 8 * i) + il ≤ inp.length)
    (hcap : ∀ ol ∈ olens, ol ≤ c) (hbuf : 8 * (outOff / 8) + c * n ≤ buf.length)
    (hroom : ∀ i il ol, ilens[i]? = some il → olens[i]? = some ol →
      8 * (outOff / 8) + c * i + 8 * (ol / 8) + 2 ≤ buf.length ∨
      ∃ d, HwDecodes ((inp.drop (8 * (inOff / 8 + stride / 8 * i))).take il) d ∧ d.length ≤ ol)
    (shuffle : Option (List Nat)) (hs : ∀ m, shuffle = some m → m.Perm (List.range n))
    {s : MemSys (Option (Nat × Option (Option Errno × Nat)))}
    (h : MemReach (oclSys e .always c stride inOff outOff inp (some ilens) (some olens) n shuffle buf) s) :
    ((∀ i il ol, ilens[i]? = some il → olens[i]? = some ol → 8 * (ol / 8) + 2 ≤ c ∨
        ∃ d, HwDecodes ((inp.drop (8 * (inOff / 8 + stride / 8 * i))).take il) d ∧ d.length ≤ ol) → ¬ MemRace s) ∧
    ¬ MemFault s ∧ (∃ s', MemReach s s' ∧ MemDone s') ∧
    s.buf.length = buf.length ∧ s.buf.take (8 * (outOff / 8)) = buf.take (8 * (outOff / 8)) ∧
    s.buf.drop (8 * (outOff / 8) + c * n) = buf.drop (8 * (outOff / 8) + c * n) ∧
    (∀ g i r, s.th g = .ret (some (i, r)) → ∃ il ol rc m, ilens[i]? = some il ∧ olens[i]? = some ol ∧ r = some (rc, m) ∧
      ChunkDone ((inp.drop (8 * (inOff / 8 + stride / 8 * i))).take il) (chunkSlot buf c (8 * (outOff / 8)) i)
        (chunkSlot s.buf c (8 * (outOff / 8)) i) ol m rc) ∧
    (∀ g g' i r r', s.th g = .ret (some (i, r)) → s.th g' = .ret (some (i, r')) → g = g') ∧
    (MemDone s → ∀ i, i < n → ∃ g r, s.th g = .ret (some (i, r))) := by
  have hex : ∀ i, ∃ x : Nat × Option Errno × Nat × List Byte, i < n →
      8 * (outOff / 8) + c * i + x.1 ≤ buf.length ∧
      ((∃ il ol, ilens[i]? = some il ∧ olens[i]? = some ol ∧ (8 * (ol / 8) + 2 ≤ c ∨
        ∃ d, HwDecodes ((inp.drop (8 * (inOff / 8 + stride / 8 * i))).take il) d ∧ d.length ≤ ol)) → x.1 ≤ c) ∧
      ∃ il ol, ilens[i]? = some il ∧ olens[i]? = some ol ∧
        Does x.1 (oclItemP e .always c (inp.drop (8 * (inOff / 8 + stride / 8 * i))) (some il) (some ol))
          (chunkSlot buf c (8 * (outOff / 8)) i) (some (x.2.1, x.2.2.1)) x.2.2.2 ∧
        ChunkDone ((inp.drop (8 * (inOff / 8 + stride / 8 * i))).take il) (chunkSlot buf c (8 * (outOff / 8)) i)
          x.2.2.2 ol x.2.2.1 x.2.1 := by
    intro i
    by_cases hi : i < n
    · obtain ⟨il, hil'⟩ : ∃ il, ilens[i]? = some il := ⟨_, List.getElem?_eq_getElem (by omega)⟩
      obtain ⟨ol, hol'⟩ : ∃ ol, olens[i]? = some ol := ⟨_, List.getElem?_eq_getElem (by omega)⟩
      obtain ⟨h8, hle⟩ := hin i il hil'
      have hci : c * i + c ≤ c * n := by rw [← Nat.mul_succ]; exact Nat.mul_le_mul_left _ hi
      have hsl : (chunkSlot buf c (8 * (outOff / 8)) i).length = c := by
        unfold chunkSlot; rw [List.length_take, List.length_drop]; omega
      have hcap' := hcap ol (List.mem_of_getElem? hol')
      by_cases hown : 8 * (ol / 8) + 2 ≤ c ∨
          ∃ d, HwDecodes ((inp.drop (8 * (inOff / 8 + stride / 8 * i))).take il) d ∧ d.length ≤ ol
      · obtain ⟨rc, m, y, k1, k2, k3⟩ := item_done e (inp.drop (8 * (inOff / 8 + stride / 8 * i)))
          (chunkSlot buf c (8 * (outOff / 8)) i) c il ol h8 (by rw [List.length_drop]; omega) hcap' (by omega)
          (by rw [hsl]; exact hown)
        have hnil : (chunkSlot buf c (8 * (outOff / 8)) i).drop c = [] := List.drop_of_length_le (by omega)
        rw [hnil, List.append_nil] at k2
        have hall : (chunkSlot buf c (8 * (outOff / 8)) i).take c = chunkSlot buf c (8 * (outOff / 8)) i :=
          List.take_of_length_le (by omega)
        rw [hall] at k3
        exact ⟨(c, rc, m, y), fun _ => ⟨by simp only; omega, fun _ => Nat.le_refl _, il, ol, hil', hol',
          Does.of_run _ (((C82_one_item ..).1 _ _ _).1 k2), k3⟩⟩
      · have hroom' : 8 * (outOff / 8) + c * i + 8 * (ol / 8) + 2 ≤ buf.length := by
          rcases hroom i il ol hil' hol' with hr | hr
          · exact hr
          · exact absurd (.inr hr) hown
        obtain ⟨rc, m, y, k1, k2, k3⟩ := item_done e (inp.drop (8 * (inOff / 8 + stride / 8 * i)))
          (chunkSlot buf c (8 * (outOff / 8)) i ++ [0, 0]) c il ol h8 (by rw [List.length_drop]; omega) hcap'
          (by simp only [List.length_append, hsl]; omega)
          (.inl (by simp only [List.length_append, hsl, List.length_cons, List.length_nil]; omega))
        rw [List.drop_left' hsl] at k2
        rw [List.take_left' hsl] at k3
        obtain ⟨y', l1, l2, l3⟩ := (nar_core e (inp.drop (8 * (inOff / 8 + stride / 8 * i))) 0 il ol).does
          (by rw [hsl]; omega) (((C82_one_item ..).1 _ _ _).1 k2)
        have hy : y = y' := List.append_inj_left' l1 rfl
        subst hy
        refine ⟨(8 * (ol / 8) + 2, rc, m, y), fun _ => ⟨by simp only; omega, ?_, il, ol, hil', hol', l3, k3⟩⟩
        rintro ⟨il2, ol2, hi2, ho2, hx⟩
        rw [hil'] at hi2; rw [hol'] at ho2
        cases hi2; cases ho2
        exact absurd hx hown
    · exact ⟨(0, none, 0, []), fun h => absurd h hi⟩
  obtain ⟨f, hf⟩ := Classical.skolem.1 hex
  obtain ⟨h1, h2, h3, h4, h5, h6, h7, h8, h9⟩ := oclSys_reach e .always c stride inOff outOff n inp (some ilens)
    (some olens) hc8 buf hbuf (fun i => (f i).1) (fun i => (f i).2.1) (fun i => (f i).2.2.1) (fun i => (f i).2.2.2)
    (fun i hi => by
      obtain ⟨k1, -, il, ol, k2, k3, k4, -⟩ := hf i hi
      have := (hin i il k2).2
      exact ⟨fun _ => by omega, by simp, k1, some il, some ol, by simp [optAt, k2], by simp [optAt, k3], k4⟩)
    shuffle hs h
  refine ⟨fun hown => h1 fun i hi => ?_, h2, h3, h4, h5, h6, ?_, h8, fun hd i hi => ?_⟩
  · obtain ⟨-, k2, il, ol, k3, k4, -, -⟩ := hf i hi
    exact k2 ⟨il, ol, k3, k4, hown i il ol k3 k4⟩
  · intro g i r hg
    obtain ⟨hi, hr, hy⟩ := h7 g i r hg
    obtain ⟨-, -, il, ol, k3, k4, -, k5⟩ := hf i hi
    exact ⟨il, ol, _, _, k3, k4, hr, by rw [hy]; exact k5⟩
  · obtain ⟨g, hg⟩ := h9 hd i hi
    exact ⟨g, _, hg⟩

/-- C82, partial: a launch with both arrays of sizes, in which each chunk is a stream whose data fit, or has a capacity
of at least two bytes less than its slot: whatever the interleaving, there is no race and no access out of bounds, all
work items end, and each chunk gets its own result, as in C80.  Missing: corrupt chunks with the capacity of the whole
slot, for which there are races, see `C82_race_false`. -/
theorem C82_launch_partial (e : Endian) (c stride inOff outOff n : Nat) (inp buf : List Byte) (ilens olens : List Nat)
    (hc8 : c % 8 = 0) (hil : ilens.length = n) (hol : olens.length = n)
    (hin : ∀ i il, ilens[i]? = some il → il % 8 = 0 ∧ 8 * (inOff / 8 + stride / 8 * i) + il ≤ inp.length)
    (hcap : ∀ ol ∈ olens, ol ≤ c) (hbuf : 8 * (outOff / 8) + c * n ≤ buf.length)
    (hown : ∀ i il ol, ilens[i]? = some il → olens[i]? = some ol → 8 * (ol / 8) + 2 ≤ c ∨
      ∃ d, HwDecodes ((inp.drop (8 * (inOff / 8 + stride / 8 * i))).take il) d ∧ d.length ≤ ol)
    (shuffle : Option (List Nat)) (hs : ∀ m, shuffle = some m → m.Perm (List.range n))
    {s : MemSys (Option (Nat × Option (Option Errno × Nat)))}
    (h : MemReach (oclSys e .always c stride inOff outOff inp (some ilens) (some olens) n shuffle buf) s) :
    ¬ MemRace s ∧ ¬ MemFault s ∧ (∃ s', MemReach s s' ∧ MemDone s') ∧
    (MemDone s → s.buf.length = buf.length ∧ s.buf.take (8 * (outOff / 8)) = buf.take (8 * (outOff / 8)) ∧
      s.buf.drop (8 * (outOff / 8) + c * n) = buf.drop (8 * (outOff / 8) + c * n) ∧
      ∀ i il ol, ilens[i]? = some il → olens[i]? = some ol → ∃ g rc m,
        (∀ g' r, s.th g' = .ret (some (i, r)) ↔ g' = g ∧ r = some (rc, m)) ∧
        ChunkDone ((inp.drop (8 * (inOff / 8 + stride / 8 * i))).take il) (chunkSlot buf c (8 * (outOff / 8)) i)
          (chunkSlot s.buf c (8 * (outOff / 8)) i) ol m rc) := by
  obtain ⟨h1, h2, h3, h4, h5, h6, h7, h8, h9⟩ := launch_done e c stride inOff outOff n inp buf ilens olens hc8 hil hol hin
    hcap hbuf (fun i il ol k1 k2 => by
      rcases hown i il ol k1 k2 with h | h
      · left
        have hi : i < n := by rw [← hil]; exact (List.getElem?_eq_some_iff.1 k1).1
        have hci : c * i + c ≤ c * n := by rw [← Nat.mul_succ]; exact Nat.mul_le_mul_left _ hi
        omega
      · exact .inr h) shuffle hs h
  refine ⟨h1 hown, h2, h3, fun hd => ⟨h4, h5, h6, fun i il ol k1 k2 => ?_⟩⟩
  have hi : i < n := by rw [← hil]; exact (List.getElem?_eq_some_iff.1 k1).1
  obtain ⟨g, r, hg⟩ := h9 hd i hi
  obtain ⟨il2, ol2, rc, m, l1, l2, rfl, l4⟩ := h7 g i r hg
  rw [k1] at l1; rw [k2] at l2
  cases l1; cases l2
  refine ⟨g, rc, m, fun g' r' => ⟨fun hg' => ?_, fun hg' => by rw [hg'.1, hg'.2]; exact hg⟩, l4⟩
  have := h8 g g' i _ _ hg hg'
  subst this
  rw [hg] at hg'
  cases hg'
  exact ⟨rfl, rfl⟩

/-- C82, partial: even with the races of `C82_race_false` the results do not depend on the interleaving, if a value
read in a race is taken to be that of the buffer at that time (in the memory model of OpenCL C such a race is
undefined): every chunk gets its own result, provided two bytes of the buffer follow its capacity or it is a stream whose data fit. -/
theorem C82_results_partial (e : Endian) (c stride inOff outOff n : Nat) (inp buf : List Byte) (ilens olens : List Nat)
    (hc8 : c % 8 = 0) (hil : ilens.length = n) (hol : olens.length = n)
    (hin : ∀ i il, ilens[i]? = some il → il % 8 = 0 ∧ 8 * (inOff / 8 + stride / 8 * i) + il ≤ inp.length)
    (hcap : ∀ ol ∈ olens, ol ≤ c) (hbuf : 8 * (outOff / 8) + c * n ≤ buf.length)
    (hroom : ∀ i il ol, ilens[i]? = some il → olens[i]? = some ol →
      8 * (outOff / 8) + c * i + 8 * (ol / 8) + 2 ≤ buf.length ∨
      ∃ d, HwDecodes ((inp.drop (8 * (inOff / 8 + stride / 8 * i))).take il) d ∧ d.length ≤ ol)
    (shuffle : Option (List Nat)) (hs : ∀ m, shuffle = some m → m.Perm (List.range n))
    {s : MemSys (Option (Nat × Option (Option Errno × Nat)))}
    (h : MemReach (oclSys e .always c stride inOff outOff inp (some ilens) (some olens) n shuffle buf) s) :
    ¬ MemFault s ∧ (∃ s', MemReach s s' ∧ MemDone s') ∧
    (MemDone s → s.buf.length = buf.length ∧ s.buf.take (8 * (outOff / 8)) = buf.take (8 * (outOff / 8)) ∧
      s.buf.drop (8 * (outOff / 8) + c * n) = buf.drop (8 * (outOff / 8) + c * n) ∧
      ∀ i il ol, ilens[i]? = some il → olens[i]? = some ol → ∃ g rc m,
        (∀ g' r, s.th g' = .ret (some (i, r)) ↔ g' = g ∧ r = some (rc, m)) ∧
        ChunkDone ((inp.drop (8 * (inOff / 8 + stride / 8 * i))).take il) (chunkSlot buf c (8 * (outOff / 8)) i)
          (chunkSlot s.buf c (8 * (outOff / 8)) i) ol m rc) := by
  obtain ⟨-, h2, h3, h4, h5, h6, h7, h8, h9⟩ := launch_done e c stride inOff outOff n inp buf ilens olens hc8 hil hol hin
    hcap hbuf hroom shuffle hs h
  refine ⟨h2, h3, fun hd => ⟨h4, h5, h6, fun i il ol k1 k2 => ?_⟩⟩
  have hi : i < n := by rw [← hil]; exact (List.getElem?_eq_some_iff.1 k1).1
  obtain ⟨g, r, hg⟩ := h9 hd i hi
  obtain ⟨il2, ol2, rc, m, l1, l2, rfl, l4⟩ := h7 g i r hg
  rw [k1] at l1; rw [k2] at l2
  cases l1; cases l2
  refine ⟨g, rc, m, fun g' r' => ⟨fun hg' => ?_, fun hg' => by rw [hg'.1, hg'.2]; exact hg⟩, l4⟩
  have := h8 g g' i _ _ hg hg'
  subst this
  rw [hg] at hg'
  cases hg'
  exact ⟨rfl, rfl⟩

/-- Two chunks of 8 bytes, the first one corrupt, with 2 bytes after the second slot: the hypotheses of
`C82_results_partial` hold. -/
example {s : MemSys (Option (Nat × Option (Option Errno × Nat)))}
    (h : MemReach (oclSys .little .always 8 24 0 0 (exLong ++ exStream1) (some [24, 16]) (some [8, 8]) 2 none
      (List.replicate 18 0)) s) (hd : MemDone s) : chunkSlot s.buf 8 0 1 = [1, 2, 3, 4, 5, 6, 7, 8] := by
  obtain ⟨-, -, h1⟩ := C82_results_partial .little 8 24 0 0 2 (exLong ++ exStream1) (List.replicate 18 0) [24, 16] [8, 8]
    rfl rfl rfl (fun i il hi => by
      rcases i with _ | _ | i
      · cases hi; decide
      · cases hi; decide
      · cases hi) (by decide) (by decide) (fun i il ol hi ho => .inl (by
      rcases i with _ | _ | i
      · cases hi; cases ho; decide
      · cases hi; cases ho; decide
      · cases hi)) none (by simp) h
  obtain ⟨-, -, -, h2⟩ := h1 hd
  obtain ⟨g, rc, m, -, h3⟩ := h2 1 16 8 rfl rfl
  exact (h3.valid _ exStream1_hw (by decide)).2.2

/-- Two valid chunks: the hypotheses of `C82_launch_partial` hold. -/
example {s : MemSys (Option (Nat × Option (Option Errno × Nat)))}
    (h : MemReach (oclSys .big .always 8 16 0 0 (exStream1 ++ exStream1) (some [16, 16]) (some [8, 8]) 2 (some [1, 0])
      (List.replicate 16 0)) s) : ¬ MemRace s := by
  refine (C82_launch_partial .big 8 16 0 0 2 (exStream1 ++ exStream1) (List.replicate 16 0) [16, 16] [8, 8]
    rfl rfl rfl (fun i il hi => by
      rcases i with _ | _ | i
      · cases hi; decide
      · cases hi; decide
      · cases hi) (by decide) (by decide) (fun i il ol hi ho => .inr ⟨[1, 2, 3, 4, 5, 6, 7, 8], ?_⟩) (some [1, 0])
      (by rintro m ⟨⟩; decide) h).1
  rcases i with _ | _ | i
  · cases hi; cases ho; exact ⟨exStream1_hw, by decide⟩
  · cases hi; cases ho; exact ⟨exStream1_hw, by decide⟩
  · cases hi

end Lib842.Props
