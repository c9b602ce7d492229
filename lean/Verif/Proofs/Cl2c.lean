import Verif.Model.Cl2c
import Verif.SpecCText
/-!
# The tool that embeds files into C sources: helper lemmas
-/

namespace Lib842
open Spec

theorem splice_ne {c : Byte} (l : List Byte) (h : c ≠ 92) : splice (c :: l) = c :: splice l := by
  rw [splice]
  intro l' hc _
  exact absurd hc h

theorem splice_ne2 {d : Byte} (c : Byte) (l : List Byte) (h : d ≠ 10) : splice (c :: d :: l) = c :: splice (d :: l) := by
  rw [splice]
  intro l' _ hd
  cases hd
  exact absurd rfl h

theorem splice_append {p : List Byte} (r : List Byte) (h : ∀ c ∈ p, c ≠ 92) : splice (p ++ r) = p ++ splice r := by
  induction p with
  | nil => rfl
  | cons c p ih =>
    rw [List.cons_append, splice_ne _ (h c List.mem_cons_self), ih fun x hx => h x (List.mem_cons_of_mem _ hx)]
    rfl

theorem trigraphs_ne {c : Byte} (l : List Byte) (h : c ≠ 63) : trigraphs (c :: l) = c :: trigraphs l := by
  rw [trigraphs]
  intro d l' hc _
  exact absurd hc h

theorem trigraphs_ne2 {d : Byte} (c : Byte) (l : List Byte) (h : d ≠ 63) :
    trigraphs (c :: d :: l) = c :: trigraphs (d :: l) := by
  rw [trigraphs]
  intro d' l' _ hd
  cases hd
  exact absurd rfl h

theorem trigraphs_append {p : List Byte} (r : List Byte) (h : ∀ c ∈ p, c ≠ 63) :
    trigraphs (p ++ r) = p ++ trigraphs r := by
  induction p with
  | nil => rfl
  | cons c p ih =>
    rw [List.cons_append, trigraphs_ne _ (h c List.mem_cons_self), ih fun x hx => h x (List.mem_cons_of_mem _ hx)]
    rfl

theorem cl2cChar_cases (c : Byte) :
    (c = 10 ∧ cl2cChar c = [92, 110, 34, 10, 34]) ∨ (c = 92 ∧ cl2cChar c = [92, 92]) ∨
    (c = 34 ∧ cl2cChar c = [92, 34]) ∨ (c ≠ 10 ∧ c ≠ 92 ∧ c ≠ 34 ∧ cl2cChar c = [c]) := by
  unfold cl2cChar
  by_cases h1 : c = 10
  · exact Or.inl ⟨h1, by rw [if_pos h1]⟩
  · by_cases h2 : c = 92
    · exact Or.inr (Or.inl ⟨h2, by rw [if_neg h1, if_pos h2]⟩)
    · by_cases h3 : c = 34
      · exact Or.inr (Or.inr (Or.inl ⟨h3, by rw [if_neg h1, if_neg h2, if_pos h3]⟩))
      · exact Or.inr (Or.inr (Or.inr ⟨h1, h2, h3, by rw [if_neg h1, if_neg h2, if_neg h3]⟩))

/-- The body with the closing quote does not begin with a newline. -/
theorem body_head (file t : List Byte) :
    ∃ d l, file.flatMap cl2cChar ++ 34 :: t = d :: l ∧ d ≠ 10 ∧ (d = 63 → ∃ f, file = 63 :: f) := by
  cases file with
  | nil => exact ⟨34, t, rfl, by decide, fun h => absurd h (by decide)⟩
  | cons c f =>
    rw [List.flatMap_cons]
    rcases cl2cChar_cases c with ⟨h, h'⟩ | ⟨h, h'⟩ | ⟨h, h'⟩ | ⟨h1, h2, h3, h'⟩ <;> rw [h']
    · exact ⟨92, _, rfl, by decide, fun h => absurd h (by decide)⟩
    · exact ⟨92, _, rfl, by decide, fun h => absurd h (by decide)⟩
    · exact ⟨92, _, rfl, by decide, fun h => absurd h (by decide)⟩
    · exact ⟨c, _, rfl, h1, fun h => ⟨f, by rw [h]⟩⟩

theorem splice_body (file : List Byte) :
    splice (file.flatMap cl2cChar ++ [34, 10, 59, 10]) = file.flatMap cl2cChar ++ [34, 10, 59, 10] := by
  induction file with
  | nil => decide
  | cons c f ih =>
    rw [List.flatMap_cons, List.append_assoc]
    rcases cl2cChar_cases c with ⟨h, h'⟩ | ⟨h, h'⟩ | ⟨h, h'⟩ | ⟨h1, h2, h3, h'⟩ <;> rw [h'] <;>
      simp only [List.cons_append, List.nil_append]
    · rw [splice_ne2 _ _ (by decide), splice_ne _ (by decide), splice_ne _ (by decide), splice_ne _ (by decide),
        splice_ne _ (by decide), ih]
    · obtain ⟨d, l, hd, hd', -⟩ := body_head f [10, 59, 10]
      rw [splice_ne2 _ _ (by decide)]
      rw [hd] at ih ⊢
      rw [splice_ne2 _ _ hd', ih]
    · rw [splice_ne2 _ _ (by decide), splice_ne _ (by decide), ih]
    · rw [splice_ne _ h2, ih]

theorem trigraphs_body (file : List Byte) (h : ¬ [63, 63] <:+: file) :
    trigraphs (file.flatMap cl2cChar ++ [34, 10, 59, 10]) = file.flatMap cl2cChar ++ [34, 10, 59, 10] := by
  induction file with
  | nil => simp [trigraphs]
  | cons c f ih =>
    have hf : ¬ [63, 63] <:+: f := fun hi => h (List.infix_cons hi)
    rw [List.flatMap_cons, List.append_assoc]
    rcases cl2cChar_cases c with ⟨_, h'⟩ | ⟨_, h'⟩ | ⟨_, h'⟩ | ⟨h1, h2, h3, h'⟩ <;> rw [h'] <;>
      simp only [List.cons_append, List.nil_append]
    · rw [trigraphs_ne _ (by decide), trigraphs_ne _ (by decide), trigraphs_ne _ (by decide), trigraphs_ne _ (by decide),
        trigraphs_ne _ (by decide), ih hf]
    · rw [trigraphs_ne _ (by decide), trigraphs_ne _ (by decide), ih hf]
    · rw [trigraphs_ne _ (by decide), trigraphs_ne _ (by decide), ih hf]
    · by_cases hc : c = 63
      · subst hc
        obtain ⟨d, l, hd, -, hd'⟩ := body_head f [10, 59, 10]
        have hi := ih hf
        rw [hd] at hi ⊢
        rw [trigraphs_ne2, hi]
        intro hd3
        obtain ⟨f', rfl⟩ := hd' hd3
        exact h ⟨[], f', rfl⟩
      · rw [trigraphs_ne _ hc, ih hf]

theorem literals_body (file : List Byte) :
    literals .inside (file.flatMap cl2cChar ++ [34, 10, 59, 10]) = some file := by
  induction file with
  | nil => decide
  | cons c f ih =>
    rw [List.flatMap_cons, List.append_assoc]
    rcases cl2cChar_cases c with ⟨h, h'⟩ | ⟨h, h'⟩ | ⟨h, h'⟩ | ⟨h1, h2, h3, h'⟩ <;> rw [h'] <;>
      simp only [List.cons_append, List.nil_append]
    · simp [literals, escapeValue, h]; exact ih
    · simp [literals, escapeValue, h]; exact ih
    · simp [literals, escapeValue, h]; exact ih
    · rw [literals]
      · rw [if_neg h1, ih]; rfl
      · exact fun hc => absurd hc h3
      · exact fun hc => absurd hc h2

theorem identifier_mem {name : List Byte} (h : isIdentifier name = true) : ∀ c ∈ name, c ≠ 92 ∧ c ≠ 63 := by
  have key : ∀ c : Byte, ((65 ≤ c ∧ c ≤ 90) ∨ (97 ≤ c ∧ c ≤ 122) ∨ c = 95) ∨ (48 ≤ c ∧ c ≤ 57) → c ≠ 92 ∧ c ≠ 63 := by
    decide
  cases name with
  | nil => cases h
  | cons d l =>
    simp only [isIdentifier, Bool.and_eq_true, List.all_eq_true, Bool.or_eq_true, decide_eq_true_eq] at h
    intro c hc
    rcases List.mem_cons.1 hc with rfl | hc
    · exact key _ (Or.inl h.1)
    · exact key _ (h.2 c hc)

end Lib842
