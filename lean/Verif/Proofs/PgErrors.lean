import Verif.Proofs.PgInterleave
/-!
# Errors in the NUMA samples
-/

namespace Lib842
namespace PgI

/-- While no message has been printed, all threads are at their first chunk. -/
structure EInv (ts : List Nat) (cpc : Nat) (s : PgSys) : Prop where
  idle : ∀ k w, ¬ w < T ts k → s.th k w = ⟨none, 0, .done⟩
  cnt : ∀ k, s.ids k = (List.range (T ts k)).countP (fun w => (s.th k w).tid.isSome)
  lt : ∀ k w t, (s.th k w).tid = some t → t < s.ids k
  act : s.msgs = 0 → ∀ k w, w < T ts k → (s.th k w).pc ≠ .done ∧ (∀ t, (s.th k w).tid = some t → (s.th k w).i = t * cpc) ∧
    ∀ rc n b, (s.th k w).pc = .inside rc n b → rc ≠ none

theorem EInv.start {ts : List Nat} {cpc : Nat} (stop : Bool) (mem : Nat → NodeMem) : EInv ts cpc (pgStart stop cpc ts mem) := by
  have h := TInv.start stop cpc ts mem
  refine ⟨h.idle, h.cnt, h.lt, fun _ k w hw => ?_⟩
  have : (pgStart stop cpc ts mem).th k w = if stop then ⟨none, 0, .start⟩ else ⟨some w, w * cpc, .head⟩ := by
    simp only [pgStart]
    rw [if_pos hw]
  rw [this]
  cases stop
  · refine ⟨by simp, ?_, by simp⟩
    intro t ht
    simp only [Bool.false_eq_true, if_false, Option.some.injEq] at ht ⊢
    rw [ht]
  · simp

theorem EInv.upd {ts : List Nat} {cpc : Nat} {s s' : PgSys} (h : EInv ts cpc s) {k w t : Nat} {n : PgTh}
    (ht : (s.th k w).tid = some t) (hn : n.tid = some t) (hth : ∀ k' w', s'.th k' w' = if k' = k ∧ w' = w then n else s.th k' w')
    (hids : s'.ids = s.ids)
    (hm : s'.msgs = 0 → s.msgs = 0 ∧ n.pc ≠ .done ∧ n.i = t * cpc ∧ ∀ rc x b, n.pc = .inside rc x b → rc ≠ none) : EInv ts cpc s' := by
  have hw : w < T ts k := by
    by_contra hw
    rw [h.idle k w hw] at ht
    cases ht
  have htid : ∀ k' w', (s'.th k' w').tid = (s.th k' w').tid := by
    intro k' w'
    rw [hth]
    split
    · rename_i hc; rw [hc.1, hc.2, hn, ht]
    · rfl
  refine ⟨?_, ?_, ?_, ?_⟩
  · intro k' w' hw'
    rw [hth, if_neg (by rintro ⟨rfl, rfl⟩; exact hw' hw)]
    exact h.idle k' w' hw'
  · intro k'
    rw [hids, h.cnt]
    simp only [htid]
  · intro k' w' u hu
    rw [htid] at hu
    rw [hids]
    exact h.lt k' w' u hu
  · intro h0 k' w' hw'
    obtain ⟨m1, m2, m3, m4⟩ := hm h0
    rw [hth]
    by_cases hc : k' = k ∧ w' = w
    · rw [if_pos hc]
      refine ⟨m2, fun u hu => ?_, m4⟩
      rw [hn] at hu
      cases hu
      exact m3
    · rw [if_neg hc]
      exact h.act m1 k' w' hw'

theorem EInv.step {d : PgDir} {f g : ChunkFn} {a : PgAddrs} {stop : Bool} {ts : List Nat} {cpc : Nat} (hpos : 0 < cpc)
    (hbig : ∀ k, T ts k * cpc < 2 ^ 64) (hfail : ∀ k i m rc n b, pgCall f g a k i m d = some (rc, n, b) → rc ≠ none)
    {s s' : PgSys} {b : Bool} (h : EInv ts cpc s) (hs : PgStep d f g a stop cpc s s' b) : EInv ts cpc s' := by
  have hend : ∀ k w t, (s.th k w).tid = some t → t * cpc ≤ pgEnd cpc t := by
    intro k w t ht
    have h1 := h.lt k w t ht
    have h2 : s.ids k ≤ T ts k := by rw [h.cnt k]; exact Nat.le_trans List.countP_le_length (by simp)
    have h3 : (t + 1) * cpc ≤ T ts k * cpc := Nat.mul_le_mul_right _ (by omega)
    have h4 := hbig k
    rw [Nat.add_mul, Nat.one_mul] at h3
    rw [pgEnd_eq hpos (by omega)]
    omega
  have hwi : ∀ k w, (s.th k w).tid ≠ none → w < T ts k := by
    intro k w hne
    by_contra hw
    rw [h.idle k w hw] at hne
    exact hne rfl
  cases hs with
  | @claim k w i hth =>
    have hw : w < T ts k := by
      by_contra hw
      rw [h.idle k w hw] at hth
      cases hth
    have hth' : ∀ k' w', (({ s with ids := fun k' => if k' = k then s.ids k + 1 else s.ids k' } : PgSys).setTh k w
        ⟨some (s.ids k), s.ids k * cpc, .head⟩).th k' w' = if k' = k ∧ w' = w then ⟨some (s.ids k), s.ids k * cpc, .head⟩ else s.th k' w' :=
      fun _ _ => rfl
    have hids : ∀ k', (({ s with ids := fun k' => if k' = k then s.ids k + 1 else s.ids k' } : PgSys).setTh k w
        ⟨some (s.ids k), s.ids k * cpc, .head⟩).ids k' = if k' = k then s.ids k + 1 else s.ids k' := fun _ => rfl
    refine ⟨?_, ?_, ?_, ?_⟩
    · intro k' w' hw'
      rw [hth', if_neg (by rintro ⟨rfl, rfl⟩; exact hw' hw)]
      exact h.idle k' w' hw'
    · intro k'
      rw [hids]
      by_cases hk : k' = k
      · subst hk
        rw [if_pos rfl, countP_flip (p := fun w => (s.th k' w).tid.isSome) (w := w) (by simp [hth]) (by simp [hth'])
          (by intro x hx; simp [hth', hx]), if_pos hw, ← h.cnt]
      · rw [if_neg hk, h.cnt k']
        simp [hth', hk]
    · intro k' w' u hu
      rw [hth'] at hu
      rw [hids]
      by_cases hc : k' = k ∧ w' = w
      · rw [if_pos hc] at hu
        rw [if_pos hc.1]
        simp only [Option.some.injEq] at hu
        omega
      · rw [if_neg hc] at hu
        have := h.lt k' w' u hu
        split
        · rename_i hk; rw [hk] at this; omega
        · exact this
    · intro h0 k' w' hw'
      rw [hth']
      by_cases hc : k' = k ∧ w' = w
      · rw [if_pos hc]
        refine ⟨by simp, fun u hu => ?_, by simp⟩
        simp only [Option.some.injEq] at hu
        rw [← hu]
      · rw [if_neg hc]
        exact h.act h0 k' w' hw'
  | @quit k w t i hth hlt =>
    have ht : (s.th k w).tid = some t := by rw [hth]
    refine h.upd (k := k) (w := w) ht rfl (fun _ _ => rfl) rfl fun h0 => ?_
    exfalso
    have := (h.act h0 k w (hwi k w (by rw [ht]; simp))).2.1 t ht
    have h2 := hend k w t ht
    rw [hth] at this
    simp only at this
    omega
  | @store k w t i hth hle hlen =>
    have ht : (s.th k w).tid = some t := by rw [hth]
    refine h.upd (k := k) (w := w) ht rfl (fun _ _ => rfl) rfl fun h0 => ⟨h0, by simp, ?_, by simp⟩
    have := (h.act h0 k w (hwi k w (by rw [ht]; simp))).2.1 t ht
    rw [hth] at this
    exact this
  | @enter k w t i n rc buf hth hcall =>
    have ht : (s.th k w).tid = some t := by rw [hth]
    refine h.upd (k := k) (w := w) ht rfl (fun _ _ => rfl) rfl fun h0 => ⟨h0, by simp, ?_, ?_⟩
    · have := (h.act h0 k w (hwi k w (by rw [ht]; simp))).2.1 t ht
      rw [hth] at this
      exact this
    · intro rc' x b' e
      cases e
      exact hfail _ _ _ _ _ _ hcall
  | @scratch k w t i n v rc buf bs hth hlen => exact ⟨h.idle, h.cnt, h.lt, h.act⟩
  | @leave k w t i n rc buf hth =>
    have ht : (s.th k w).tid = some t := by rw [hth]
    refine h.upd (k := k) (w := w) ht (by split <;> rfl) (fun _ _ => rfl) rfl fun h0 => ?_
    obtain ⟨a1, a2, a3⟩ := h.act h0 k w (hwi k w (by rw [ht]; simp))
    have a4 := a3 rc n buf (by rw [hth])
    have a5 := a2 t ht
    rw [hth] at a5
    rw [if_neg a4]
    exact ⟨h0, by simp, a5, by simp⟩
  | @report k w t i hth =>
    have ht : (s.th k w).tid = some t := by rw [hth]
    refine h.upd (k := k) (w := w) ht (by split <;> rfl) (fun _ _ => rfl) rfl fun h0 => ?_
    have h0' : s.msgs + 1 = 0 := h0
    omega

theorem EInv.exec {d : PgDir} {f g : ChunkFn} {a : PgAddrs} {stop : Bool} {ts : List Nat} {cpc : Nat} (hpos : 0 < cpc)
    (hbig : ∀ k, T ts k * cpc < 2 ^ 64) (hfail : ∀ k i m rc n b, pgCall f g a k i m d = some (rc, n, b) → rc ≠ none)
    {s₀ s : PgSys} {n : Nat} (h : EInv ts cpc s₀) (hs : PgExec d f g a stop cpc s₀ n s) : EInv ts cpc s := by
  induction hs with
  | init => exact h
  | step _ hst ih => exact ih.step hpos hbig hfail hst

theorem pgCall_fails {d : PgDir} {f g : ChunkFn} {a : PgAddrs}
    (hf : d = .comp → ∀ x o src dst rc n b, f x o src dst = .ret rc n b → rc ≠ none)
    (hg : d = .dec → ∀ x o src dst rc n b, g x o src dst = .ret rc n b → rc ≠ none) :
    ∀ k i m rc n b, pgCall f g a k i m d = some (rc, n, b) → rc ≠ none := by
  have hr : ∀ (cap : Nat) (c : Call) (rc : Option Errno) (n : Nat) (b : List Byte), pgResult cap c = some (rc, n, b) → c = .ret rc n b := by
    intro cap c rc n b h
    cases c with
    | ub => cases h
    | timeout => cases h
    | ret rc' n' b' =>
      simp only [pgResult] at h
      split at h
      · cases h; rfl
      · cases h
  intro k i m rc n b h
  cases d with
  | comp =>
    simp only [pgCall, Option.bind_eq_bind, Option.bind_eq_some_iff] at h
    obtain ⟨src, -, cap, -, dst, -, h⟩ := h
    exact hf rfl _ _ _ _ _ _ _ (hr _ _ _ _ _ h)
  | dec =>
    simp only [pgCall, Option.bind_eq_bind, Option.bind_eq_some_iff] at h
    obtain ⟨_, -, src, -, cap, -, dst, -, h⟩ := h
    exact hg rfl _ _ _ _ _ _ _ (hr _ _ _ _ _ h)

end PgI
end Lib842
