import Verif.Model.NumaSpread
/-!
# Lemmas on the spreading of threads among NUMA nodes
-/

namespace Lib842

theorem numaCpusetsFrom_eq (m : NumaMachine) (k n : Nat) :
    numaCpusetsFrom m n k = ((List.range' n k).filter m.memAllowed).map (numaCpuset m) := by
  induction k generalizing n with
  | zero => rfl
  | succ k ih =>
    rw [List.range'_succ, List.filter_cons]
    show (if m.memAllowed n then _ else _) = _
    split
    · rw [List.map_cons, ih]
    · rw [ih]

/-- The first `p` threads are bound if this works for them, and after the first failure nothing happens. -/
theorem spreadFrom_spec (m : NumaMachine) (sets : List (List Nat)) (k i : Nat) (aff : Nat → List Nat) (p : Nat) (hp : p ≤ k)
    (hok : ∀ t, i ≤ t → t < i + p → (sets.getD (t % sets.length) []).filter m.usable ≠ [])
    (hstop : p = k ∨ (sets.getD ((i + p) % sets.length) []).filter m.usable = []) (t : Nat) :
    spreadFrom m sets i aff k t =
      if i ≤ t ∧ t < i + p then (sets.getD (t % sets.length) []).filter m.usable else aff t := by
  induction k generalizing i aff p with
  | zero => rw [if_neg (by omega)]; rfl
  | succ k ih =>
    unfold spreadFrom setAffinity
    cases p with
    | zero =>
      rcases hstop with h | h
      · cases h
      · rw [Nat.add_zero] at h
        rw [if_pos h, if_neg (by omega)]
    | succ p =>
      rw [if_neg (hok i (Nat.le_refl _) (by omega))]
      simp only
      rw [ih (i + 1) _ p (by omega) (fun t h1 h2 => hok t (by omega) (by omega))
        (by
          rw [show i + 1 + p = i + (p + 1) by omega]
          exact hstop.imp_left Nat.succ.inj)]
      by_cases ht : t = i
      · subst ht
        rw [if_neg (by omega), if_pos rfl, if_pos (by omega)]
      · by_cases h2 : i + 1 ≤ t ∧ t < i + 1 + p
        · rw [if_pos h2, if_pos (by omega)]
        · rw [if_neg h2, if_neg ht, if_neg (by omega)]

theorem count_mod (k a : Nat) (ha : a < k) (T : Nat) :
    ((List.range T).filter fun t => t % k = a).length = (T + (k - 1 - a)) / k := by
  induction T with
  | zero => rw [Nat.zero_add, Nat.div_eq_of_lt (by omega)]; rfl
  | succ T ih =>
    rw [List.range_succ, List.filter_append, List.length_append, ih, show T + 1 + (k - 1 - a) = (T + (k - 1 - a)) + 1 by omega,
      Nat.succ_div]
    congr 1
    have hd := Nat.div_add_mod T k
    have hm := Nat.mod_lt T (show 0 < k by omega)
    have hiff : k ∣ T + (k - 1 - a) + 1 ↔ T % k = a := by
      have e : T + (k - 1 - a) + 1 = k * (T / k) + (T % k + (k - a)) := by omega
      rw [e, Nat.dvd_add_right (Nat.dvd_mul_right _ _)]
      constructor
      · rintro ⟨c, hc⟩
        have h1 : 0 < c := by
          rcases Nat.eq_zero_or_pos c with rfl | h
          · omega
          · exact h
        have h2 : c < 2 := by
          apply Nat.lt_of_not_le
          intro h
          have := Nat.mul_le_mul_left k h
          omega
        have : c = 1 := by omega
        subst this
        omega
      · intro h
        exact ⟨1, by omega⟩
    by_cases h : T % k = a
    · rw [if_pos (hiff.2 h)]; simp [h]
    · rw [if_neg (fun hh => h (hiff.1 hh))]; simp [h]

end Lib842
