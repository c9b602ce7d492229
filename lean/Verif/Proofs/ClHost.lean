import Verif.SpecClHost
import Verif.Proofs.OclKernel
/-!
# Launches in which some chunks fail; choice of devices
-/

namespace Lib842
open Spec

/-! ## Launch -/

/-- A buffer is a list of chunks. -/
theorem cut_chunks (c : Nat) : ∀ (n : Nat) (l : List Byte), l.length = c * n →
    ∃ cs : List (List Byte), cs.length = n ∧ (∀ x ∈ cs, x.length = c) ∧ cs.flatten = l := by
  intro n
  induction n with
  | zero => intro l hl; exact ⟨[], rfl, by simp, (List.eq_nil_of_length_eq_zero (by simpa using hl)).symm⟩
  | succ n ih =>
    intro l hl
    rw [Nat.mul_succ] at hl
    obtain ⟨cs, h1, h2, h3⟩ := ih (l.drop c) (by rw [List.length_drop]; omega)
    refine ⟨l.take c :: cs, by simp [h1], ?_, by rw [List.flatten_cons, h3, List.take_append_drop]⟩
    intro x hx
    rcases List.mem_cons.1 hx with rfl | hx
    · rw [List.length_take]; omega
    · exact h2 x hx

theorem flatten_slot {c : Nat} {cs : List (List Byte)} (hc : ∀ x ∈ cs, x.length = c) {i : Nat} {x : List Byte}
    (hx : cs[i]? = some x) (post : List Byte) :
    ((cs.flatten ++ post).drop (c * i)).take c = x := by
  induction cs generalizing i with
  | nil => simp at hx
  | cons a cs ih =>
    have ha : a.length = c := hc a (List.mem_cons_self ..)
    cases i with
    | zero =>
      simp only [List.getElem?_cons_zero, Option.some.injEq] at hx
      subst hx
      simp [← ha, List.append_assoc]
    | succ i =>
      have := ih (fun x hx => hc x (List.mem_cons_of_mem _ hx)) (i := i) (by simpa using hx)
      have e1 : c * (i + 1) = a.length + c * i := by rw [ha, Nat.mul_succ, Nat.add_comm]
      rw [List.flatten_cons, List.append_assoc, e1, List.drop_length_add_append, this]

theorem chunkSlot_eq {c : Nat} {pre post : List Byte} {cs : List (List Byte)} (hc : ∀ x ∈ cs, x.length = c) {i : Nat}
    {x : List Byte} (hx : cs[i]? = some x) : chunkSlot (pre ++ (cs.flatten ++ post)) c pre.length i = x := by
  unfold chunkSlot
  rw [List.drop_length_add_append, flatten_slot hc hx]

theorem filter_single {α : Type} {l : List (Nat × α)} (hn : (l.map (·.1)).Nodup) {r : Nat × α} (h : r ∈ l) :
    l.filter (fun p => p.1 == r.1) = [r] := by
  induction l with
  | nil => simp at h
  | cons a l ih =>
    simp only [List.map_cons, List.nodup_cons, List.mem_map, not_exists, not_and] at hn
    rcases List.mem_cons.1 h with rfl | h
    · rw [List.filter_cons_of_pos (by simp)]
      rw [List.filter_eq_nil_iff.2]
      intro p hp
      have := hn.1 p hp
      simpa using this
    · rw [List.filter_cons_of_neg]
      · exact ih hn.2 h
      · have := hn.1 r h
        simp only [beq_iff_eq]
        exact fun h' => this h'.symm

/-- A launch in which every work item keeps to its slot: each chunk is treated as if it were alone, in
whatever order the items run. -/
theorem oclLaunch_each (e : Endian) (fmt : ClFormat) (hfmt : fmt ≠ .inplace) (c stride inOff outOff n : Nat)
    (inp : List Byte) (ilens olens : Option (List Nat)) (hc8 : c % 8 = 0)
    (buf : List Byte) (hbuf : 8 * (outOff / 8) + c * n ≤ buf.length)
    (P : Nat → List Byte → List Byte → Nat → Option Errno → Prop)
    (hitem : ∀ i, i < n → 8 * (inOff / 8 + stride / 8 * i) ≤ inp.length ∧
      ∃ il ol, optAt ilens i = some il ∧ optAt olens i = some ol ∧
        ∀ rest : List Byte, rest.length = buf.length - (8 * (outOff / 8) + c * i) →
          ∃ rc m y, y.length = c ∧ oclItem e fmt c (inp.drop (8 * (inOff / 8 + stride / 8 * i))) rest il ol =
            .ret rc m (y ++ rest.drop c) ∧ P i (rest.take c) y m rc)
    (shuffle : Option (List Nat)) (hs : ∀ m, shuffle = some m → m.Perm (List.range n))
    (order : List Nat) (hord : order.Perm (List.range (oclGlobalSize n))) :
    ∃ out, oclLaunch e fmt c stride inOff outOff inp ilens olens n shuffle order buf = some out ∧
      out.buf.length = buf.length ∧ out.buf.take (8 * (outOff / 8)) = buf.take (8 * (outOff / 8)) ∧
      out.buf.drop (8 * (outOff / 8) + c * n) = buf.drop (8 * (outOff / 8) + c * n) ∧
      ∀ i, i < n → ∃ m rc, out.lens.filter (fun p => p.1 == i) = [(i, m)] ∧
        out.rets.filter (fun p => p.1 == i) = [(i, rc)] ∧
        P i (chunkSlot buf c (8 * (outOff / 8)) i) (chunkSlot out.buf c (8 * (outOff / 8)) i) m rc := by
  have hG : n ≤ oclGlobalSize n := by unfold oclGlobalSize; omega
  have hperm := processed_perm hord hG hs
  obtain ⟨pre, hpre⟩ : ∃ pre, pre = buf.take (8 * (outOff / 8)) := ⟨_, rfl⟩
  obtain ⟨post, hpost⟩ : ∃ post, post = buf.drop (8 * (outOff / 8) + c * n) := ⟨_, rfl⟩
  have hprel : pre.length = 8 * (outOff / 8) := by rw [hpre]; simp; omega
  have hpostl : post.length = buf.length - (8 * (outOff / 8) + c * n) := by rw [hpost]; simp
  have main : ∀ (order : List Nat) (cs : List (List Byte)) (s : ClOut),
      (∀ g ∈ processed n shuffle order, g < n) → (processed n shuffle order).Nodup →
      (∀ m, shuffle = some m → m.length = n) →
      cs.length = n → (∀ x ∈ cs, x.length = c) →
      s.buf = pre ++ (cs.flatten ++ post) →
      ∃ (cs' : List (List Byte)) (out : ClOut) (res : List (Nat × Nat × Option Errno)),
        order.foldlM (fun s gid => oclWorkItem e fmt c stride inOff outOff inp ilens olens n shuffle gid s) s = some out ∧
        cs'.length = n ∧ (∀ x ∈ cs', x.length = c) ∧ (∀ i, i ∉ processed n shuffle order → cs'[i]? = cs[i]?) ∧
        out.buf = pre ++ (cs'.flatten ++ post) ∧ res.map (·.1) = processed n shuffle order ∧
        out.lens = (res.map fun r => (r.1, r.2.1)).reverse ++ s.lens ∧
        out.rets = (res.map fun r => (r.1, r.2.2)).reverse ++ s.rets ∧
        ∀ r ∈ res, ∃ old y, cs[r.1]? = some old ∧ cs'[r.1]? = some y ∧ P r.1 old y r.2.1 r.2.2 := by
    intro order
    induction order with
    | nil =>
      intro cs s _ _ _ hl hcl hb
      exact ⟨cs, s, [], rfl, hl, hcl, fun i _ => rfl, hb, by simp [processed], by simp, by simp, by simp⟩
    | cons g order ih =>
      intro cs s hlt hnd hml hl hcl hb
      rw [List.foldlM_cons]
      by_cases hg : g < n
      · obtain ⟨i, hi⟩ : ∃ i, i = (match shuffle with | none => g | some m => m.getD g 0) := ⟨_, rfl⟩
        have hproc : processed n shuffle (g :: order) = i :: processed n shuffle order := by
          unfold processed
          rw [List.filter_cons_of_pos (by simpa using hg), List.map_cons, hi]
          cases shuffle <;> rfl
        rw [hproc] at hlt hnd ⊢
        have hil : i < n := hlt i (List.mem_cons_self ..)
        obtain ⟨hio, il, ol, h1, h2, h3⟩ := hitem i hil
        have hoff : 8 * (outOff / 8 + c / 8 * i) = pre.length + c * i := by
          rw [hprel, Nat.mul_add, ← Nat.mul_assoc]
          congr 2; omega
        have hfl := flatten_len hcl
        have hci : c * i + c ≤ c * n := by rw [← Nat.mul_succ]; exact Nat.mul_le_mul_left _ hil
        have hsl : s.buf.length = pre.length + (c * n + post.length) := by
          rw [hb, List.length_append, List.length_append, hfl, hl]
        obtain ⟨old, hold⟩ : ∃ old, cs[i]? = some old := ⟨_, List.getElem?_eq_getElem (by omega)⟩
        obtain ⟨rc, m, y, hyl, h4, hP⟩ := h3 (s.buf.drop (pre.length + c * i)) (by rw [List.length_drop]; omega)
        have holds : (s.buf.drop (pre.length + c * i)).take c = old := by
          rw [hb]; exact chunkSlot_eq hcl hold
        rw [holds] at hP
        have hchunk : oclChunk e fmt c stride inOff outOff inp ilens olens i s =
            some { buf := pre ++ ((cs.set i y).flatten ++ post), lens := (i, m) :: s.lens,
                   rets := (i, rc) :: s.rets } := by
          unfold oclChunk
          simp only
          rw [if_neg (by rintro (⟨-, h⟩ | ⟨h, -⟩ | h) <;> first | omega | exact hfmt h), h1, h2]
          simp only
          rw [hoff, h4, hb]
          simp only
          rw [set_slice hcl (by omega)]
        have hwork : oclWorkItem e fmt c stride inOff outOff inp ilens olens n shuffle g s =
            oclChunk e fmt c stride inOff outOff inp ilens olens i s := by
          unfold oclWorkItem
          rw [if_neg (by omega)]
          cases shuffle with
          | none => simp only at hi ⊢; rw [hi]
          | some m =>
            have := hml m rfl
            simp only at hi ⊢
            rw [List.getD_eq_getElem?_getD, List.getElem?_eq_getElem (by omega)] at hi
            rw [List.getElem?_eq_getElem (by omega), hi]; rfl
        rw [hwork, hchunk]
        have hnd' := List.nodup_cons.1 hnd
        obtain ⟨cs', out, res, k1, k2, k3, k4, k5, k6, k7, k8, k9⟩ := ih (cs.set i y)
          { buf := pre ++ ((cs.set i y).flatten ++ post), lens := (i, m) :: s.lens, rets := (i, rc) :: s.rets }
          (fun k hk => hlt k (List.mem_cons_of_mem _ hk)) hnd'.2 hml (by simpa using hl)
          (fun x hx => by
            rcases List.mem_or_eq_of_mem_set hx with h | h
            · exact hcl x h
            · rw [h]; exact hyl) rfl
        refine ⟨cs', out, (i, m, rc) :: res, k1, k2, k3, ?_, k5, by rw [List.map_cons, k6], by rw [k7]; simp,
          by rw [k8]; simp, ?_⟩
        · intro k hk
          simp only [List.mem_cons, not_or] at hk
          rw [k4 k hk.2, List.getElem?_set_ne (Ne.symm hk.1)]
        · intro r hr
          rcases List.mem_cons.1 hr with rfl | hr
          · exact ⟨old, y, hold, by rw [k4 i hnd'.1, List.getElem?_set_self (by omega)], hP⟩
          · obtain ⟨o, y', h5, h6, h7⟩ := k9 r hr
            have hri : r.1 ≠ i := by
              intro h
              have : r.1 ∈ processed n shuffle order := by rw [← k6]; exact List.mem_map_of_mem hr
              exact hnd'.1 (h ▸ this)
            rw [List.getElem?_set_ne (Ne.symm hri)] at h5
            exact ⟨o, y', h5, h6, h7⟩
      · have hproc : processed n shuffle (g :: order) = processed n shuffle order := by
          unfold processed
          rw [List.filter_cons_of_neg (by simpa using hg)]
        rw [hproc] at hlt hnd ⊢
        have hwork : oclWorkItem e fmt c stride inOff outOff inp ilens olens n shuffle g s = some s := by
          unfold oclWorkItem
          rw [if_pos (by omega)]
        rw [hwork]
        exact ih cs s hlt hnd hml hl hcl hb
  obtain ⟨cs, hcs1, hcs2, hcs3⟩ := cut_chunks c n ((buf.drop (8 * (outOff / 8))).take (c * n))
    (by rw [List.length_take, List.length_drop]; omega)
  have hbufeq : buf = pre ++ (cs.flatten ++ post) := by
    rw [hcs3, hpre, hpost, ← List.drop_drop, List.take_append_drop, List.take_append_drop]
  have hpnd : (processed n shuffle order).Nodup := hperm.nodup_iff.2 List.nodup_range
  obtain ⟨cs', out, res, k1, k2, k3, k4, k5, k6, k7, k8, k9⟩ := main order cs { buf := buf, lens := [], rets := [] }
    (fun g hg => by have := hperm.mem_iff.1 hg; simpa using this) hpnd
    (fun m hm => by simpa using (hs m hm).length_eq) hcs1 hcs2 hbufeq
  have hfl := flatten_len k3
  rw [k2] at hfl
  have hfl0 := flatten_len hcs2
  rw [hcs1] at hfl0
  refine ⟨out, k1, ?_, ?_, ?_, ?_⟩
  · rw [k5]
    conv_rhs => rw [hbufeq]
    simp only [List.length_append, hfl, hfl0]
  · rw [k5, ← hprel, List.take_left' rfl, hprel, hpre]
  · rw [k5, ← hprel, List.drop_length_add_append, ← hfl, List.drop_left' rfl, hpost, hprel, hfl]
  · intro i hi
    have hip : i ∈ processed n shuffle order := hperm.mem_iff.2 (by simpa using hi)
    rw [← k6] at hip
    obtain ⟨r, hr, rfl⟩ := List.mem_map.1 hip
    obtain ⟨old, y, h1, h2, h3⟩ := k9 r hr
    refine ⟨r.2.1, r.2.2, ?_, ?_, ?_⟩
    · rw [k7, List.append_nil]
      refine filter_single (r := (r.1, r.2.1)) ?_ ?_
      · rw [List.map_reverse, (List.reverse_perm _).nodup_iff, List.map_map]
        rw [show ((fun p : Nat × Nat => p.1) ∘ fun r : Nat × Nat × Option Errno => (r.1, r.2.1)) = (·.1) from rfl, k6]
        exact hpnd
      · rw [List.mem_reverse]; exact List.mem_map.2 ⟨r, hr, rfl⟩
    · rw [k8, List.append_nil]
      refine filter_single (r := (r.1, r.2.2)) ?_ ?_
      · rw [List.map_reverse, (List.reverse_perm _).nodup_iff, List.map_map]
        rw [show ((fun p : Nat × Option Errno => p.1) ∘ fun r : Nat × Nat × Option Errno => (r.1, r.2.2)) = (·.1) from rfl, k6]
        exact hpnd
      · rw [List.mem_reverse]; exact List.mem_map.2 ⟨r, hr, rfl⟩
    · have e1 : chunkSlot buf c (8 * (outOff / 8)) r.1 = old := by
        rw [← hprel, hbufeq]; exact chunkSlot_eq hcs2 h1
      have e2 : chunkSlot out.buf c (8 * (outOff / 8)) r.1 = y := by
        rw [← hprel, k5]; exact chunkSlot_eq k3 h2
      rw [e1, e2]
      exact h3

theorem lastStored_of_filter {α : Type} {l : List (Nat × α)} {i : Nat} {x : α}
    (h : l.filter (fun p => p.1 == i) = [(i, x)]) : lastStored l i = some x := by
  unfold lastStored
  rw [← List.head?_filter, h]
  rfl

/-! ## Choice of the devices -/

/-- `d` is available. -/
def ClDevice.isAvail (d : ClDevice) : Bool := match d.available with | .ok b => b | .error _ => false

theorem pushAvailable_ok {l : List ClDevice} : ∀ {acc r : List ClDevice}, pushAvailable l acc = .ok r →
    r = acc ++ l.filter ClDevice.isAvail := by
  induction l with
  | nil => intro acc r h; simp only [pushAvailable, Except.ok.injEq] at h; simp [h]
  | cons d ds ih =>
    intro acc r h
    unfold pushAvailable at h
    cases hd : d.available with
    | error c => rw [hd] at h; simp at h
    | ok b =>
      rw [hd] at h
      cases b
      · simp only at h
        rw [ih h, List.filter_cons_of_neg (by simp [ClDevice.isAvail, hd])]
      · simp only at h
        rw [ih h, List.filter_cons_of_pos (by simp [ClDevice.isAvail, hd])]
        simp

theorem pushAvailable_total {l : List ClDevice} (h : ∀ d ∈ l, ∃ b, d.available = .ok b) : ∀ acc : List ClDevice,
    pushAvailable l acc = .ok (acc ++ l.filter ClDevice.isAvail) := by
  induction l with
  | nil => intro acc; simp [pushAvailable]
  | cons d ds ih =>
    intro acc
    obtain ⟨b, hb⟩ := h d (List.mem_cons_self ..)
    have ih := ih (fun d hd => h d (List.mem_cons_of_mem _ hd))
    unfold pushAvailable
    rw [hb]
    cases b
    · simp only; rw [ih, List.filter_cons_of_neg (by simp [ClDevice.isAvail, hb])]
    · simp only; rw [ih, List.filter_cons_of_pos (by simp [ClDevice.isAvail, hb])]; simp

theorem ClPlatform.not_has {p : ClPlatform} {t : ClDevType} {l : List ClDevice} (h : p.devices t = .ok l)
    (he : l.filter ClDevice.isAvail = []) : ¬ p.has t := by
  rintro ⟨l', d, h1, h2, h3⟩
  rw [h] at h1
  cases h1
  have := List.filter_eq_nil_iff.1 he d h2
  simp [ClDevice.isAvail, h3] at this

theorem scanPlatforms_found {t : ClDevType} {r : List ClDevice} : ∀ {ps : List ClPlatform},
    scanPlatforms t ps [] = .ok (true, r) →
    ∃ pre p post l, ps = pre ++ p :: post ∧ p.devices t = .ok l ∧ r = l.filter ClDevice.isAvail ∧ r ≠ [] ∧
      ∀ q ∈ pre, ¬ q.has t := by
  intro ps
  induction ps with
  | nil => intro h; simp [scanPlatforms] at h
  | cons p ps ih =>
    intro h
    unfold scanPlatforms at h
    cases hp : p.devices t with
    | error c =>
      rw [hp] at h
      simp only at h
      by_cases hc : c = clDeviceNotFound
      · rw [if_pos hc] at h
        obtain ⟨pre, p', post, l, h1, h2, h3, h4, h5⟩ := ih h
        refine ⟨p :: pre, p', post, l, by rw [h1]; rfl, h2, h3, h4, ?_⟩
        intro q hq
        rcases List.mem_cons.1 hq with rfl | hq
        · rintro ⟨l, d, h6, -⟩; rw [hp] at h6; cases h6
        · exact h5 q hq
      · rw [if_neg hc] at h; simp at h
    | ok l =>
      rw [hp] at h
      simp only at h
      cases hl : pushAvailable l [] with
      | error c => rw [hl] at h; simp at h
      | ok a =>
        rw [hl] at h
        simp only at h
        have ha := pushAvailable_ok hl
        rw [List.nil_append] at ha
        by_cases hem : a.isEmpty = true
        · rw [if_pos hem] at h
          have hem := List.isEmpty_iff.1 hem
          rw [hem] at h ha
          obtain ⟨pre, p', post, l', h1, h2, h3, h4, h5⟩ := ih h
          refine ⟨p :: pre, p', post, l', by rw [h1]; rfl, h2, h3, h4, ?_⟩
          intro q hq
          rcases List.mem_cons.1 hq with rfl | hq
          · exact ClPlatform.not_has hp ha.symm
          · exact h5 q hq
        · rw [if_neg hem] at h
          simp only [Except.ok.injEq, Prod.mk.injEq, true_and] at h
          subst h
          exact ⟨[], p, ps, l, rfl, hp, ha, by simpa using hem, by simp⟩

theorem scanPlatforms_none {t : ClDevType} {r : List ClDevice} : ∀ {ps : List ClPlatform},
    scanPlatforms t ps [] = .ok (false, r) → r = [] ∧ ∀ q ∈ ps, ¬ q.has t := by
  intro ps
  induction ps with
  | nil => intro h; simp only [scanPlatforms, Except.ok.injEq, Prod.mk.injEq, true_and] at h; simp [← h]
  | cons p ps ih =>
    intro h
    unfold scanPlatforms at h
    cases hp : p.devices t with
    | error c =>
      rw [hp] at h
      simp only at h
      by_cases hc : c = clDeviceNotFound
      · rw [if_pos hc] at h
        obtain ⟨h1, h2⟩ := ih h
        refine ⟨h1, ?_⟩
        intro q hq
        rcases List.mem_cons.1 hq with rfl | hq
        · rintro ⟨l, d, h6, -⟩; rw [hp] at h6; cases h6
        · exact h2 q hq
      · rw [if_neg hc] at h; simp at h
    | ok l =>
      rw [hp] at h
      simp only at h
      cases hl : pushAvailable l [] with
      | error c => rw [hl] at h; simp at h
      | ok a =>
        rw [hl] at h
        simp only at h
        have ha := pushAvailable_ok hl
        rw [List.nil_append] at ha
        by_cases hem : a.isEmpty = true
        · rw [if_pos hem] at h
          have hem := List.isEmpty_iff.1 hem
          rw [hem] at h ha
          obtain ⟨h1, h2⟩ := ih h
          refine ⟨h1, ?_⟩
          intro q hq
          rcases List.mem_cons.1 hq with rfl | hq
          · exact ClPlatform.not_has hp ha.symm
          · exact h2 q hq
        · rw [if_neg hem] at h
          simp at h

theorem scanPlatforms_total {t : ClDevType} : ∀ {ps : List ClPlatform}, (∀ p ∈ ps, p.answers t) →
    ∃ b r, scanPlatforms t ps [] = .ok (b, r) := by
  intro ps
  induction ps with
  | nil => intro _; exact ⟨_, _, rfl⟩
  | cons p ps ih =>
    intro h
    have ih := ih (fun q hq => h q (List.mem_cons_of_mem _ hq))
    unfold scanPlatforms
    rcases h p (List.mem_cons_self ..) with hp | ⟨l, hp, hl⟩
    · rw [hp]
      simp only [clDeviceNotFound, if_true]
      exact ih
    · rw [hp]
      simp only
      rw [pushAvailable_total hl]
      simp only
      rw [List.nil_append]
      by_cases hem : (l.filter ClDevice.isAvail).isEmpty = true
      · rw [if_pos hem, List.isEmpty_iff.1 hem]
        exact ih
      · rw [if_neg hem]
        exact ⟨_, _, rfl⟩

end Lib842
