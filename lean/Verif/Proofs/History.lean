import Verif.Spec
/-!
# How far back the format reaches (lemmas for C105)
-/

namespace Lib842
open Spec

/-- The index arguments of valid templates have size 2, 4 or 8. -/
theorem hist_sizes : ∀ t ∈ templates, ∀ a ∈ t, ∀ n, a = Action.I n → n = 2 ∨ n = 4 ∨ n = 8 := by
  intro t ht a ha n hn
  subst hn
  have h : ∀ t ∈ templates, ∀ a ∈ t, a ∈ [Action.D 2, .D 4, .D 8, .I 2, .I 4, .I 8] := by decide
  simpa using h t ht _ ha

theorem hist_ring {size : Nat} (h : size = 2 ∨ size = 4 ∨ size = 8) : ringSize size = 512 ∨ ringSize size = 2048 := by
  rcases h with rfl | rfl | rfl <;> simp [ringSize, indexBits]

theorem hist_ref {p p' w size i o : Nat} (hs : size = 2 ∨ size = 4 ∨ size = 8) (hp : p % 2048 = p' % 2048)
    (hw : p + 2048 ≤ 8 * ((p + w) / 8)) (h : RingRef (p + w) size i o) :
    p ≤ o ∧ RingRef (p' + w) size i (p' + (o - p)) := by
  obtain ⟨h1, h2, h3⟩ := h
  have hr := hist_ring hs
  have hpo : p ≤ o := by omega
  refine ⟨hpo, ?_, ?_, ?_⟩
  · rw [← h1]
    rcases hr with hr | hr <;> rw [hr] <;> omega
  · omega
  · omega

theorem hist_arg {p p' w : List Byte} {a : Arg} {out : List Byte} (hp : p.length % 2048 = p'.length % 2048)
    (hw : p.length + 2048 ≤ 8 * ((p.length + w.length) / 8)) (ha : ∀ n, a.action = .I n → n = 2 ∨ n = 4 ∨ n = 8)
    (h : ArgStep (p ++ w) a out) : ∃ w', w.length ≤ w'.length ∧ out = p ++ w' ∧ ArgStep (p' ++ w) a (p' ++ w') := by
  cases h with
  | @data bs => exact ⟨w ++ bs, by simp, by simp, by rw [← List.append_assoc]; exact .data⟩
  | @index size i o h =>
    rw [List.length_append] at h
    obtain ⟨h1, h2⟩ := hist_ref (p' := p'.length) (ha size rfl) hp hw h
    have e1 : (p ++ w).drop o = w.drop (o - p.length) := by
      rw [List.drop_append, List.drop_eq_nil_of_le h1, List.nil_append]
    have e2 : (p' ++ w).drop (p'.length + (o - p.length)) = w.drop (o - p.length) := by
      rw [List.drop_append, List.drop_eq_nil_of_le (by omega), List.nil_append, Nat.add_sub_cancel_left]
    refine ⟨w ++ (w.drop (o - p.length)).take size, by simp, by rw [e1]; simp, ?_⟩
    rw [← List.append_assoc, ← e2]
    exact .index (by rw [List.length_append]; exact h2)

theorem hist_grow {p w w' : Nat} (hw : p + 2048 ≤ 8 * ((p + w) / 8)) (h : w ≤ w') : p + 2048 ≤ 8 * ((p + w') / 8) := by omega

theorem hist_args {p p' : List Byte} {as : List Arg} (hp : p.length % 2048 = p'.length % 2048)
    (ha : ∀ a ∈ as, ∀ n, a.action = .I n → n = 2 ∨ n = 4 ∨ n = 8) : ∀ {w out : List Byte},
    p.length + 2048 ≤ 8 * ((p.length + w.length) / 8) → ArgsRun (p ++ w) as out →
    ∃ w', w.length ≤ w'.length ∧ out = p ++ w' ∧ ArgsRun (p' ++ w) as (p' ++ w') := by
  induction as with
  | nil => intro w out hw h; cases h; exact ⟨w, Nat.le_refl _, rfl, .nil⟩
  | cons a as ih =>
    intro w out hw h
    cases h with
    | cons h1 h2 =>
      obtain ⟨w1, hl, rfl, h3⟩ := hist_arg hp hw (ha a (by simp)) h1
      obtain ⟨w2, hl2, rfl, h4⟩ := ih (fun b hb => ha b (by simp [hb])) (hist_grow hw hl) h2
      exact ⟨w2, by omega, rfl, .cons h3 h4⟩

theorem hist_op {p p' w : List Byte} {op : Op} {out : List Byte} (hp : p.length % 2048 = p'.length % 2048)
    (hw : p.length + 2048 ≤ 8 * ((p.length + w.length) / 8)) (hv : op.Valid)
    (h : OpStep (p ++ w) op out) : ∃ w', w.length ≤ w'.length ∧ out = p ++ w' ∧ OpStep (p' ++ w) op (p' ++ w') := by
  cases h with
  | @template code args _ h =>
    obtain ⟨w', hl, ho, h'⟩ := hist_args hp (fun a ha n hn =>
      hist_sizes _ (List.mem_of_getElem? hv.1) a.action (List.mem_map_of_mem ha) n hn) hw h
    exact ⟨w', hl, ho, .template h'⟩
  | @rep n h =>
    have hl : 8 ≤ w.length := by omega
    have e : ∀ q : List Byte, (q ++ w).drop ((q ++ w).length - 8) = w.drop (w.length - 8) := by
      intro q
      rw [List.length_append, List.drop_append, List.drop_eq_nil_of_le (by omega), List.nil_append]
      congr 1
      omega
    refine ⟨w ++ (List.replicate (n + 1) (w.drop (w.length - 8))).flatten, by simp, by rw [e p, List.append_assoc], ?_⟩
    rw [← List.append_assoc, ← e p']
    exact .rep (by rw [List.length_append]; omega)
  | zeros => exact ⟨w ++ List.replicate 8 0#8, by simp, by simp, by rw [← List.append_assoc]; exact .zeros⟩
  | @short bs => exact ⟨w ++ bs, by simp, by simp, by rw [← List.append_assoc]; exact .short⟩

theorem hist_run {p p' : List Byte} {ops : List Op} (hp : p.length % 2048 = p'.length % 2048)
    (hv : ∀ op ∈ ops, op.Valid) : ∀ {w out : List Byte},
    p.length + 2048 ≤ 8 * ((p.length + w.length) / 8) → Run (p ++ w) ops out →
    ∃ w', out = p ++ w' ∧ Run (p' ++ w) ops (p' ++ w') := by
  induction ops with
  | nil => intro w out hw h; cases h; exact ⟨w, rfl, .nil⟩
  | cons a as ih =>
    intro w out hw h
    cases h with
    | cons h1 h2 =>
      obtain ⟨w1, hl, rfl, h3⟩ := hist_op hp hw (hv a (by simp)) h1
      obtain ⟨w2, rfl, h4⟩ := ih (fun b hb => hv b (by simp [hb])) (hist_grow hw hl) h2
      exact ⟨w2, rfl, .cons h3 h4⟩

end Lib842
