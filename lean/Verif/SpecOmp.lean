import Verif.Model.OmpInterleave
/-!
# Vocabulary for the OpenMP loops (C91)
-/

namespace Lib842

/-- The bytes and the sizes that an iteration is about to write or is writing: first index and number of each. -/
def OmpProg.writes : OmpProg → Option ((Nat × Nat) × (Nat × Nat))
  | .size i _ _ => some ((0, 0), (i, 1))
  | .call lo len i n _ _ => some ((lo, len), (i, n))
  | .inside lo i out cells _ => some ((lo, out.length), (i, cells.length))
  | _ => none

/-- Index `j` is among `r.2` indices from `r.1` on. -/
def InRange (r : Nat × Nat) (j : Nat) : Prop := r.1 ≤ j ∧ j < r.1 + r.2

/-- Data race: two iterations are about to write, or are writing, the same byte or the same size. -/
def OmpRace (s : OmpSys) : Prop :=
  ∃ t u a b, t ≠ u ∧ (s.th t).writes = some a ∧ (s.th u).writes = some b ∧
    ((∃ j, InRange a.1 j ∧ InRange b.1 j) ∨ ∃ j, InRange a.2 j ∧ InRange b.2 j)

/-- Some iteration does something undefined, accesses memory outside the arrays, or makes a call that does. -/
def OmpFault (s : OmpSys) : Prop :=
  ∃ t, s.th t = .ub ∨
    (∃ a, (s.th t).writes = some a ∧ (s.buf.length < a.1.1 + a.1.2 ∨ s.sizes.length < a.2.1 + a.2.2)) ∨
    ∃ lo len i n f next, s.th t = .call lo len i n f next ∧
      ∀ out cells r, f (slot s.buf lo len) (slot s.sizes i n) = some (out, cells, r) → out.length ≠ len ∨ cells.length ≠ n

/-- The end of the loop: all iterations have ended. -/
def OmpDone (s : OmpSys) : Prop := ∀ t, s.th t = .done

/-- However the steps of the iterations are interleaved: nothing undefined, no data race, and the loop can always go on to its end. -/
def OmpSafe (s₀ : OmpSys) : Prop :=
  ∀ s, OmpReach s₀ s → ¬ OmpFault s ∧ ¬ OmpRace s ∧ ∃ s', OmpReach s s' ∧ OmpDone s'

/-- The errors of the iterations (`errs t` for iteration `t < T`) as the loop reports them: without an error `omp_success` stays set and nothing is
written; otherwise it is cleared and there is exactly one message, for one of the errors. -/
def OmpReports (T : Nat) (errs : Nat → Option Errno) (s : OmpSys) : Prop :=
  (s.success = true ∧ s.msgs = [] ∧ ∀ t < T, errs t = none) ∨
  (s.success = false ∧ ∃ t < T, ∃ x, errs t = some x ∧ s.msgs = [x])

end Lib842
