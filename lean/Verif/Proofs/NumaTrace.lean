import Verif.Model.NumaTrace
/-!
# Lemmas about the trace output of the spreading of threads
-/

namespace Lib842

theorem cpuRun_spec (s : List Nat) : ∀ fuel c, cpuSetSize ≤ c + fuel → c < cpuSetSize →
    c ≤ cpuRun s fuel c ∧ cpuRun s fuel c < cpuSetSize ∧ (∀ x, c < x → x ≤ cpuRun s fuel c → x ∈ s) ∧
      ¬(cpuRun s fuel c + 1 < cpuSetSize ∧ cpuRun s fuel c + 1 ∈ s) := by
  intro fuel
  induction fuel with
  | zero => intro c h1 h2; omega
  | succ f ih =>
    intro c h1 h2
    unfold cpuRun
    by_cases h : c + 1 < cpuSetSize ∧ c + 1 ∈ s
    · rw [if_pos h]
      obtain ⟨a, b, d, e⟩ := ih (c + 1) (by omega) h.1
      refine ⟨by omega, b, ?_, e⟩
      intro x hx hx'
      by_cases hc : x = c + 1
      · rw [hc]; exact h.2
      · exact d x (by omega) hx'
    · rw [if_neg h]
      exact ⟨Nat.le_refl _, h2, fun x _ _ => by omega, h⟩

/-- The ranges written from CPU `c` on -/
structure CpuRanges (s : List Nat) (c : Nat) (rs : List (Nat × Nat)) : Prop where
  le : ∀ r ∈ rs, r.1 ≤ r.2
  gaps : rs.Pairwise fun a b => a.2 + 1 < b.1
  mem : ∀ x, (∃ r ∈ rs, r.1 ≤ x ∧ x ≤ r.2) ↔ c ≤ x ∧ x < cpuSetSize ∧ x ∈ s

theorem cpuLoop_spec (s : List Nat) : ∀ fuel c out, cpuSetSize ≤ c + fuel →
    ∃ rs, CpuRanges s c rs ∧ cpuLoop s fuel c out = out ++ rs.flatMap fun r => cpuItem r.1 r.2 := by
  intro fuel
  induction fuel with
  | zero =>
    intro c out h
    refine ⟨[], ⟨by simp, List.Pairwise.nil, fun x => ?_⟩, by simp [cpuLoop]⟩
    constructor
    · rintro ⟨r, hr, -⟩; cases hr
    · rintro ⟨a, b, -⟩; omega
  | succ f ih =>
    intro c out h
    unfold cpuLoop
    by_cases hc : c < cpuSetSize
    · rw [if_pos hc]
      by_cases hs : c ∈ s
      · rw [if_pos hs]
        obtain ⟨a, b, d, e⟩ := cpuRun_spec s cpuSetSize c (by omega) hc
        generalize cpuRun s cpuSetSize c = l at *
        obtain ⟨rs, hr, heq⟩ := ih (l + 1) (out ++ cpuItem c l) (by omega)
        refine ⟨(c, l) :: rs, ⟨?_, ?_, ?_⟩, ?_⟩
        · intro r hm
          rcases List.mem_cons.1 hm with rfl | hm
          · exact a
          · exact hr.le r hm
        · refine List.pairwise_cons.2 ⟨fun r hm => ?_, hr.gaps⟩
          have := (hr.mem r.1).1 ⟨r, hm, Nat.le_refl _, hr.le r hm⟩
          show l + 1 < r.1
          by_cases hx : r.1 = l + 1
          · exact absurd ⟨hx ▸ this.2.1, hx ▸ this.2.2⟩ e
          · omega
        · intro x
          constructor
          · rintro ⟨r, hm, h1, h2⟩
            rcases List.mem_cons.1 hm with rfl | hm
            · refine ⟨h1, by simp only at h2; omega, ?_⟩
              by_cases hx : x = c
              · rw [hx]; exact hs
              · exact d x (by simp only at h1; omega) h2
            · have := (hr.mem x).1 ⟨r, hm, h1, h2⟩
              exact ⟨by omega, this.2⟩
          · rintro ⟨h1, h2, h3⟩
            by_cases hx : x ≤ l
            · exact ⟨(c, l), List.mem_cons_self, h1, hx⟩
            · obtain ⟨r, hm, h4⟩ := (hr.mem x).2 ⟨by omega, h2, h3⟩
              exact ⟨r, List.mem_cons_of_mem _ hm, h4⟩
        · rw [heq, List.flatMap_cons, List.append_assoc]
      · rw [if_neg hs]
        obtain ⟨rs, hr, heq⟩ := ih (c + 1) out (by omega)
        refine ⟨rs, ⟨hr.le, hr.gaps, fun x => ?_⟩, heq⟩
        rw [hr.mem x]
        constructor
        · rintro ⟨h1, h2⟩; exact ⟨by omega, h2⟩
        · rintro ⟨h1, h2, h3⟩
          refine ⟨?_, h2, h3⟩
          by_cases hx : x = c
          · exact absurd (hx ▸ h3) hs
          · omega
    · rw [if_neg hc]
      refine ⟨[], ⟨by simp, List.Pairwise.nil, fun x => ?_⟩, by simp⟩
      constructor
      · rintro ⟨r, hr, -⟩; cases hr
      · rintro ⟨a, b, -⟩; omega

/-- A range without the comma -/
def cpuItem' (r : Nat × Nat) : List Char :=
  if r.1 = r.2 then Nat.toDigits 10 r.1 else Nat.toDigits 10 r.1 ++ '-' :: Nat.toDigits 10 r.2

theorem cpuItem_eq (r : Nat × Nat) : cpuItem r.1 r.2 = cpuItem' r ++ [','] := by
  unfold cpuItem cpuItem'
  by_cases h : r.1 = r.2
  · rw [if_pos h, if_pos h]
  · rw [if_neg h, if_neg h]

theorem dropLast_items : ∀ rs : List (Nat × Nat), rs ≠ [] →
    (rs.flatMap fun r => cpuItem r.1 r.2) ≠ [] ∧
      (rs.flatMap fun r => cpuItem r.1 r.2).dropLast = [','].intercalate (rs.map cpuItem') := by
  intro rs
  induction rs with
  | nil => intro h; exact absurd rfl h
  | cons r rs ih =>
    intro _
    rw [List.flatMap_cons, cpuItem_eq]
    refine ⟨by simp, ?_⟩
    cases rs with
    | nil => simp [List.intercalate]
    | cons r' rs =>
      obtain ⟨h1, h2⟩ := ih (by simp)
      rw [List.dropLast_append_of_ne_nil h1, h2]
      simp [List.intercalate, List.intersperse]

theorem digit_ne {n : Nat} {c : Char} (hc : c.isDigit = false) : c ∉ Nat.toDigits 10 n := by
  intro h
  have := Nat.isDigit_of_mem_toDigits (by decide) (by decide) h
  rw [hc] at this
  cases this

theorem comma_not_mem (r : Nat × Nat) : ',' ∉ cpuItem' r := by
  unfold cpuItem'
  split
  · exact digit_ne (by decide)
  · simp [digit_ne (c := ',') (by decide)]

theorem item_chars (r : Nat × Nat) (ch : Char) (h : ch ∈ cpuItem' r) : ch.isDigit = true ∨ ch = '-' := by
  unfold cpuItem' at h
  split at h
  · exact .inl (Nat.isDigit_of_mem_toDigits (by decide) (by decide) h)
  · rcases List.mem_append.1 h with h | h
    · exact .inl (Nat.isDigit_of_mem_toDigits (by decide) (by decide) h)
    · rcases List.mem_cons.1 h with h | h
      · exact .inr h
      · exact .inl (Nat.isDigit_of_mem_toDigits (by decide) (by decide) h)

theorem item_split (r : Nat × Nat) : (cpuItem' r).splitOn '-' =
    if r.1 = r.2 then [Nat.toDigits 10 r.1] else [Nat.toDigits 10 r.1, Nat.toDigits 10 r.2] := by
  have h1 : ∀ n, (Nat.toDigits 10 n).splitOn '-' = [Nat.toDigits 10 n] := by
    intro n
    have := List.splitOn_intercalate (ls := [Nat.toDigits 10 n]) '-' (by
      intro l hl
      rw [List.mem_singleton.1 hl]
      exact digit_ne (by decide)) (by simp)
    simpa [List.intercalate] using this
  unfold cpuItem'
  by_cases h : r.1 = r.2
  · rw [if_pos h, if_pos h, h1]
  · rw [if_neg h, if_neg h, List.splitOn_append_cons_self_of_not_mem (digit_ne (by decide)) _, h1]

theorem cpuSetToString_spec (s : List Nat) (h : ∃ c ∈ s, c < cpuSetSize) :
    ∃ rs, rs ≠ [] ∧ CpuRanges s 0 rs ∧ cpuSetToString s = some ([','].intercalate (rs.map cpuItem')) := by
  obtain ⟨rs, hr, heq⟩ := cpuLoop_spec s cpuSetSize 0 [] (by omega)
  have hne : rs ≠ [] := by
    obtain ⟨c, hc, hlt⟩ := h
    obtain ⟨r, hm, -⟩ := (hr.mem c).2 ⟨Nat.zero_le _, hlt, hc⟩
    exact List.ne_nil_of_mem hm
  obtain ⟨h1, h2⟩ := dropLast_items rs hne
  refine ⟨rs, hne, hr, ?_⟩
  unfold cpuSetToString
  rw [heq, List.nil_append, if_neg h1, h2]

theorem cpuSetToString_none (s : List Nat) (h : ∀ c ∈ s, cpuSetSize ≤ c) : cpuSetToString s = none := by
  obtain ⟨rs, hr, heq⟩ := cpuLoop_spec s cpuSetSize 0 [] (by omega)
  have he : rs = [] := by
    cases rs with
    | nil => rfl
    | cons r rs =>
      have := (hr.mem r.1).1 ⟨r, List.mem_cons_self, Nat.le_refl _, hr.le r List.mem_cons_self⟩
      have := h _ this.2.2
      omega
  unfold cpuSetToString
  rw [heq, he]
  simp

theorem traceSets_none (sets : List (List Nat)) : ∀ n, (∃ s ∈ sets, ∀ c ∈ s, cpuSetSize ≤ c) → traceSets n sets = none := by
  induction sets with
  | nil => rintro n ⟨s, hs, -⟩; cases hs
  | cons a rest ih =>
    rintro n ⟨s, hs, he⟩
    rcases List.mem_cons.1 hs with rfl | hs
    · simp only [traceSets, cpuSetToString_none s he]
    · simp only [traceSets, ih (n + 1) ⟨s, hs, he⟩]
      cases cpuSetToString a <;> rfl

theorem traceSets_some (sets : List (List Nat)) : ∀ n, (∀ s ∈ sets, ∃ c ∈ s, c < cpuSetSize) → ∃ t, traceSets n sets = some t := by
  induction sets with
  | nil => intro n _; exact ⟨_, rfl⟩
  | cons a rest ih =>
    intro n h
    obtain ⟨rs, -, -, h1⟩ := cpuSetToString_spec a (h a List.mem_cons_self)
    obtain ⟨t, h2⟩ := ih (n + 1) fun s hs => h s (List.mem_cons_of_mem _ hs)
    simp only [traceSets, h1, h2]
    exact ⟨_, rfl⟩

theorem spreadFromT_same (m : NumaMachine) (sets : List (List Nat)) (hne : sets ≠ [])
    (h : ∀ s ∈ sets, ∃ c ∈ s, c < cpuSetSize) : ∀ k i aff out,
    ∃ t, spreadFromT m sets i aff out k = some (spreadFrom m sets i aff k, out ++ t) := by
  intro k
  induction k with
  | zero => intro i aff out; exact ⟨[], by simp [spreadFromT, spreadFrom]⟩
  | succ k ih =>
    intro i aff out
    have hlt : i % sets.length < sets.length := Nat.mod_lt _ (List.length_pos_iff.2 hne)
    have hmem : sets.getD (i % sets.length) [] ∈ sets := by
      rw [List.getD_eq_getElem?_getD, List.getElem?_eq_getElem hlt]
      exact List.getElem_mem _
    obtain ⟨rs, -, -, h1⟩ := cpuSetToString_spec _ (h _ hmem)
    unfold spreadFromT spreadFrom
    simp only [h1]
    cases hs : setAffinity m (sets.getD (i % sets.length) []) with
    | none =>
      simp only
      exact ⟨"Assigning thread ".toList ++ (Nat.toDigits 10 i ++ (" to CPU set ".toList ++ (([','].intercalate (rs.map cpuItem')) ++ ['\n']))),
        by simp only [List.append_assoc]⟩
    | some s =>
      simp only
      obtain ⟨t, ht⟩ := ih (i + 1) (fun t => if t = i then s else aff t)
        (out ++ "Assigning thread ".toList ++ Nat.toDigits 10 i ++ " to CPU set ".toList ++ ([','].intercalate (rs.map cpuItem')) ++ ['\n'])
      refine ⟨"Assigning thread ".toList ++ (Nat.toDigits 10 i ++ (" to CPU set ".toList ++ (([','].intercalate (rs.map cpuItem')) ++ (['\n'] ++ t)))), ?_⟩
      rw [ht]
      simp only [List.append_assoc]

theorem spreadFromT_lines (m : NumaMachine) (sets : List (List Nat)) (text : Nat → List Char)
    (ht : ∀ t, cpuSetToString (sets.getD (t % sets.length) []) = some (text t))
    (hu : ∀ t, setAffinity m (sets.getD (t % sets.length) []) ≠ none) : ∀ k i aff out,
    spreadFromT m sets i aff out k = some (spreadFrom m sets i aff k, out ++ (List.range' i k).flatMap fun t =>
      "Assigning thread ".toList ++ Nat.toDigits 10 t ++ " to CPU set ".toList ++ text t ++ ['\n']) := by
  intro k
  induction k with
  | zero => intro i aff out; simp [spreadFromT, spreadFrom]
  | succ k ih =>
    intro i aff out
    unfold spreadFromT spreadFrom
    simp only [ht i]
    cases hs : setAffinity m (sets.getD (i % sets.length) []) with
    | none => exact absurd hs (hu i)
    | some s =>
      simp only
      rw [ih, List.range'_succ, List.flatMap_cons]
      simp only [List.append_assoc]

theorem spreadFromT_prefix (m : NumaMachine) (sets : List (List Nat)) (a : List Char) : ∀ k i aff out,
    spreadFromT m sets i aff (a ++ out) k = (spreadFromT m sets i aff out k).map fun r => (r.1, a ++ r.2) := by
  intro k
  induction k with
  | zero => intro i aff out; rfl
  | succ k ih =>
    intro i aff out
    unfold spreadFromT
    cases ht : cpuSetToString (sets.getD (i % sets.length) []) with
    | none => rfl
    | some t =>
      simp only
      cases hs : setAffinity m (sets.getD (i % sets.length) []) with
      | none => simp only [Option.map_some, List.append_assoc]
      | some s =>
        simp only
        rw [← ih]
        simp only [List.append_assoc]

theorem traceSets_lines (text : Nat → List Char) (sets : List (List Nat)) : ∀ n,
    (∀ k (h : k < sets.length), cpuSetToString sets[k] = some (text (n + k))) →
    traceSets n sets = some ((List.range' n sets.length).flatMap fun k =>
      "NUMA CPU set ".toList ++ Nat.toDigits 10 k ++ " contains ".toList ++ text k ++ ['\n']) := by
  induction sets with
  | nil => intro n _; rfl
  | cons s rest ih =>
    intro n h
    have h0 := h 0 (by simp)
    have hr := ih (n + 1) (fun k hk => by
      have := h (k + 1) (by simpa using hk)
      rw [show n + (k + 1) = n + 1 + k from by omega] at this
      simpa using this)
    simp only [List.getElem_cons_zero, Nat.add_zero] at h0
    simp only [traceSets, h0, hr, List.length_cons, List.range'_succ, List.flatMap_cons]
    simp only [List.append_assoc, List.singleton_append]

end Lib842
