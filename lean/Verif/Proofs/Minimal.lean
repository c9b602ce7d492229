import Verif.SpecMin
import Verif.Proofs.NewWords
import Verif.Proofs.OptDict
/-!
# The smallest stream for given data: helper lemmas
-/

namespace Lib842
open Spec

/-- `f 0 + … + f (n - 1)` -/
def psum (f : Nat → Nat) : Nat → Nat
  | 0 => 0
  | n + 1 => psum f n + f n

theorem psum_add (f : Nat → Nat) (a n : Nat) : psum f (a + n) = psum f a + psum (fun j => f (a + j)) n := by
  induction n with
  | zero => rfl
  | succ n ih => rw [← Nat.add_assoc, psum, psum, ih]; omega

theorem psum_congr {f g : Nat → Nat} {n : Nat} (h : ∀ i < n, f i = g i) : psum f n = psum g n := by
  induction n with
  | zero => rfl
  | succ n ih => rw [psum, psum, ih fun i hi => h i (by omega), h n (by omega)]

theorem psum_list (f : Nat → Nat) (n : Nat) : ((List.range n).map f).sum = psum f n := by
  induction n with
  | zero => rfl
  | succ n ih => rw [List.range_succ, List.map_append, List.sum_append, ih, psum]; simp

/-- The dictionaries after `i` groups -/
def tabAt (x : List Byte) : Nat → Tab
  | 0 => .init
  | i + 1 => (tabAt x i).next x (8 * i)

theorem tabAt_rep (x : List Byte) (i : Nat) : (tabAt x i).Rep x (8 * i) := by
  induction i with
  | zero => exact .init x
  | succ i ih => exact ih.next (by omega)

/-- Bits of the template for group `i` -/
def tmplCost (x : List Byte) (i : Nat) : Nat := ((tabAt x i).blockOp x (8 * i)).bits.length

/-- Bits of a group that is not a repetition -/
def firstCost (x : List Byte) (i : Nat) : Nat := if zeroGroup x i then 5 else tmplCost x i

/-- Bits of repetition number `r ≥ 1` as `sw842_compress` encodes it -/
def swRep (r : Nat) : Nat := if r % 64 = 1 then 11 else 0

/-- Bits of repetition number `r ≥ 1` in the shortest encoding -/
def minRep (z : Bool) (r : Nat) : Nat :=
  if z then (if r % 64 = 1 then 5 else if r % 64 = 2 then 5 else if r % 64 = 3 then 1 else 0)
  else if r % 64 = 1 then 11 else 0

def swCost (x : List Byte) (i : Nat) : Nat := if reps x i = 0 then firstCost x i else swRep (reps x i)

def minCost (x : List Byte) (i : Nat) : Nat := if reps x i = 0 then firstCost x i else minRep (zeroGroup x i) (reps x i)

theorem slice_group (x : List Byte) (i : Nat) : slice x (8 * i) 8 = group x i := rfl

theorem zeroGroup_iff (x : List Byte) (i : Nat) : zeroGroup x i = true ↔ group x i = List.replicate 8 0#8 := by
  unfold zeroGroup group
  rw [decide_eq_true_iff]

theorem repOps_bits (rc : Nat) : ((repOps rc).flatMap Op.bits).length = if rc ≠ 0 then 11 else 0 := by
  unfold repOps
  by_cases h : rc = 0
  · simp [h]
  · simp [h, Op.bits]

/-- Loop state of the compressor at group `i` -/
def lastAt (x : List Byte) : Nat → Option (List Byte)
  | 0 => none
  | i + 1 => some (group x i)

def rcAt (x : List Byte) : Nat → Nat
  | 0 => 0
  | i + 1 => reps x i % 64

theorem reps_ne_zero (x : List Byte) (i : Nat) : some (group x i) = lastAt x i ↔ reps x i ≠ 0 := by
  cases i with
  | zero => simp [lastAt, reps]
  | succ i =>
    simp only [lastAt, reps, Option.some.injEq]
    split <;> simp [*]

theorem reps_rc (x : List Byte) (i : Nat) (h : reps x i ≠ 0) : reps x i % 64 = (rcAt x i + 1) % 64 := by
  cases i with
  | zero => exact absurd rfl h
  | succ i =>
    simp only [rcAt, reps] at h ⊢
    split at h
    · rename_i he; rw [if_pos he]; omega
    · exact absurd rfl h

theorem refLoop_cost (x : List Byte) (k i : Nat) :
    psum (swCost x) i + ((refLoop x k (tabAt x i) (8 * i) (lastAt x i) (rcAt x i)).flatMap Op.bits).length =
      psum (swCost x) (i + k) + if rcAt x i ≠ 0 then 11 else 0 := by
  induction k generalizing i with
  | zero => rw [refLoop, repOps_bits]; rfl
  | succ k ih =>
    have ih := ih (i + 1)
    rw [show i + 1 + k = i + (k + 1) by omega] at ih
    rw [refLoop, List.flatMap_append, List.length_append, slice_group]
    have hrc : rcAt x i < 64 := by
      cases i with
      | zero => show 0 < 64; omega
      | succ i => show reps x i % 64 < 64; omega
    have hs := reps_ne_zero x i
    have hr := reps_rc x i
    have e1 : (tabAt x i).next x (8 * i) = tabAt x (i + 1) := rfl
    have e2 : some (group x i) = lastAt x (i + 1) := rfl
    have e3 : rcAt x (i + 1) = reps x i % 64 := rfl
    rw [e1, show 8 * i + 8 = 8 * (i + 1) by omega]
    rw [psum] at ih
    unfold refStep
    simp only
    rw [slice_group]
    by_cases h : reps x i = 0
    · rw [if_neg (fun hh => hs.1 hh h)]
      simp only
      rw [e2]
      have e4 : rcAt x (i + 1) = 0 := by rw [e3, h]
      rw [swCost, if_pos h, e4] at ih
      rw [List.flatMap_append, List.length_append, repOps_bits]
      have e5 : ([if group x i = List.replicate 8 0#8 then Op.zeros else (tabAt x i).blockOp x (8 * i)].flatMap Op.bits).length
          = firstCost x i := by
        unfold firstCost
        by_cases hz : zeroGroup x i = true
        · rw [if_pos hz, if_pos ((zeroGroup_iff x i).1 hz)]; simp [Op.bits]
        · rw [if_neg hz, if_neg (fun hh => hz ((zeroGroup_iff x i).2 hh))]; simp [tmplCost]
      rw [e5]
      simp only [ne_eq, not_true_eq_false, if_false] at ih ⊢
      omega
    · rw [if_pos (hs.2 h)]
      have hr := hr h
      rw [swCost, if_neg h, swRep, hr] at ih
      by_cases hc : rcAt x i + 1 ≤ 0x3f
      · rw [if_pos hc]
        have e4 : rcAt x (i + 1) = rcAt x i + 1 := by rw [e3, hr]; omega
        simp only
        rw [e2]
        rw [e4] at ih
        simp only [List.flatMap_nil, List.length_nil, ne_eq] at ih ⊢
        rw [if_pos (by omega : ¬ rcAt x i + 1 = 0)] at ih
        by_cases h0 : rcAt x i = 0
        · rw [if_pos (by omega)] at ih
          rw [if_neg (by omega)]; omega
        · rw [if_neg (by omega)] at ih
          rw [if_pos h0]; omega
      · rw [if_neg hc]
        have e4 : rcAt x (i + 1) = 0 := by rw [e3, hr]; omega
        simp only
        rw [e2, if_pos (by omega)]
        rw [e4, if_neg (by omega), if_neg (by omega)] at ih
        simp only [List.flatMap_cons, List.flatMap_nil, List.append_nil, Op.bits, List.length_append, length_bitsOf]
        omega

/-- Bits of the ops of `sw842_compress` -/
theorem refOps_cost {x : List Byte} (hx : x.length % 8 = 0) :
    ((refOps x).flatMap Op.bits).length = psum (swCost x) (x.length / 8) := by
  have h := refLoop_cost x (x.length / 8) 0
  simp only [psum, rcAt, tabAt, lastAt] at h
  unfold refOps shortOps
  rw [if_pos hx, List.append_nil]
  simpa using h

/-! ## Cost of the encoding against the shortest one -/

theorem reps_zero_run (x : List Byte) (i : Nat) (h : reps x (i + 1) ≠ 0) :
    group x (i + 1) = group x i ∧ reps x (i + 1) = reps x i + 1 := by
  by_cases he : group x (i + 1) = group x i
  · exact ⟨he, by rw [reps, if_pos he]⟩
  · rw [reps, if_neg he] at h; exact absurd rfl h

theorem zeroGroup_succ {x : List Byte} {i : Nat} (h1 : zeroGroup x i = true) (h2 : zeroGroup x (i + 1) = true) :
    reps x (i + 1) = reps x i + 1 := by
  rw [zeroGroup_iff] at h1 h2
  rw [reps, if_pos (h2.trans h1.symm)]

theorem zeroGroup_first {x : List Byte} {i : Nat} (h1 : zeroGroup x i ≠ true) (h2 : zeroGroup x (i + 1) = true) :
    reps x (i + 1) = 0 := by
  by_contra h
  have := (reps_zero_run x i h).1
  rw [Ne, zeroGroup_iff] at h1
  rw [zeroGroup_iff] at h2
  exact h1 (this ▸ h2)

/-- Waste of a run that is still open after `i` groups -/
def openWaste (x : List Byte) : Nat → Nat
  | 0 => 0
  | i + 1 => if zeroGroup x i then runWaste (reps x i) else 0

/-- Waste counted at group `i` -/
def endWaste (x : List Byte) (i : Nat) : Nat := if zeroGroup x i && !zeroGroup x (i + 1) then runWaste (reps x i) else 0

theorem rep_waste_table : ∀ r < 64, swRep (r + 1) + runWaste r = minRep true (r + 1) + runWaste (r + 1) := by decide

theorem rep_waste (r : Nat) : swRep (r + 1) + runWaste r = minRep true (r + 1) + runWaste (r + 1) := by
  have h := rep_waste_table (r % 64) (Nat.mod_lt _ (by omega))
  unfold swRep minRep runWaste at h ⊢
  rwa [show (r % 64 + 1) % 64 = (r + 1) % 64 by omega, Nat.mod_mod] at h

theorem cost_waste (x : List Byte) (m : Nat) :
    psum (swCost x) (m + 1) = psum (minCost x) (m + 1) + psum (endWaste x) m + openWaste x (m + 1) := by
  induction m with
  | zero =>
    simp [psum, swCost, minCost, reps, openWaste, runWaste]
  | succ m ih =>
    rw [psum.eq_2 (swCost x), psum.eq_2 (minCost x), ih, psum.eq_2 (endWaste x)]
    have key : swCost x (m + 1) + openWaste x (m + 1) = minCost x (m + 1) + endWaste x m + openWaste x (m + 1 + 1) := by
      simp only [openWaste, endWaste, swCost, minCost]
      by_cases h1 : zeroGroup x m = true
      · by_cases h2 : zeroGroup x (m + 1) = true
        · have hr := zeroGroup_succ h1 h2
          have hne : reps x (m + 1) ≠ 0 := by omega
          rw [if_neg hne, if_neg hne, hr, if_pos h1, if_pos h2, h1, h2]
          have := rep_waste (reps x m)
          simp only [Bool.not_true, Bool.and_false, Bool.false_eq_true, if_false]
          omega
        · have hr : reps x (m + 1) = 0 := by
            by_contra h
            have := (reps_zero_run x m h).1
            rw [zeroGroup_iff] at h1 h2
            exact h2 (this.trans h1)
          rw [if_pos hr, if_pos hr, if_pos h1, if_neg h2, h1, Bool.eq_false_iff.2 h2]
          simp only [Bool.not_false, Bool.and_true, if_true]
          omega
      · rw [if_neg h1, Bool.eq_false_iff.2 h1]
        simp only [Bool.false_and, Bool.false_eq_true, if_false]
        by_cases h2 : zeroGroup x (m + 1) = true
        · have hr := zeroGroup_first h1 h2
          rw [if_pos hr, if_pos hr, if_pos h2, hr]
          simp [runWaste]
        · rw [if_neg h2, Bool.eq_false_iff.2 h2]
          simp [swRep, minRep]
    omega

theorem zeroGroup_end {x : List Byte} {i : Nat} (h : x.length < 8 * i + 8) : zeroGroup x i = false := by
  rw [Bool.eq_false_iff, Ne, zeroGroup_iff]
  intro hh
  have := congrArg List.length hh
  simp [group] at this
  omega

theorem sw_waste (x : List Byte) :
    psum (swCost x) (x.length / 8) = psum (minCost x) (x.length / 8) + zeroWaste x := by
  have hw : zeroWaste x = psum (endWaste x) (x.length / 8) := psum_list _ _
  rw [hw]
  rcases hm : x.length / 8 with _ | m
  · rfl
  · rw [cost_waste, psum.eq_2 (endWaste x)]
    have : endWaste x m = openWaste x (m + 1) := by
      unfold endWaste openWaste
      rw [zeroGroup_end (x := x) (i := m + 1) (by omega)]
      simp
    omega

/-! ## No stream is shorter -/

theorem group_prefix {out x : List Byte} (h : out <+: x) {i : Nat} (hi : 8 * i + 8 ≤ out.length) : group x i = group out i := by
  obtain ⟨r, rfl⟩ := h
  unfold group
  rw [List.drop_append_of_le_length (by omega), List.take_append_of_le_length (by simp; omega)]

theorem group_repl {g r : List Byte} (hg : g.length = 8) (n j : Nat) (hj : j < n) :
    (((List.replicate n g).flatten ++ r).drop (8 * j)).take 8 = g := by
  induction n generalizing j with
  | zero => omega
  | succ n ih =>
    rw [List.replicate_succ, List.flatten_cons, List.append_assoc]
    cases j with
    | zero => rw [Nat.mul_zero, List.drop_zero, List.take_append_of_le_length (by omega), List.take_of_length_le (by omega)]
    | succ j =>
      rw [show 8 * (j + 1) = g.length + 8 * j by omega, ← List.drop_drop, List.drop_left]
      exact ih j (by omega)

theorem group_rep {x out : List Byte} {n : Nat} (h8 : 8 ≤ out.length) (hm : out.length % 8 = 0)
    (hx : out ++ (List.replicate n (out.drop (out.length - 8))).flatten <+: x) {j : Nat} (hj : j < n) :
    group x (out.length / 8 + j) = group x (out.length / 8 - 1) := by
  have hlen : (out.drop (out.length - 8)).length = 8 := by simp; omega
  rw [group_prefix (i := out.length / 8 - 1) ((List.prefix_append _ _).trans hx) (by omega)]
  obtain ⟨r, rfl⟩ := hx
  have e : group out (out.length / 8 - 1) = out.drop (out.length - 8) := by
    unfold group
    rw [show 8 * (out.length / 8 - 1) = out.length - 8 by omega, List.take_of_length_le (by omega)]
  rw [e]
  unfold group
  rw [show 8 * (out.length / 8 + j) = out.length + 8 * j by omega, List.append_assoc, ← List.drop_drop, List.drop_left]
  exact group_repl hlen n j hj

theorem reps_of_rep {x : List Byte} {i n : Nat} (hi : 1 ≤ i) (h : ∀ j < n, group x (i + j) = group x (i - 1)) (j : Nat) (hj : j < n) :
    reps x (i + j) = reps x (i - 1) + j + 1 := by
  induction j with
  | zero =>
    have := h 0 hj
    obtain ⟨i, rfl⟩ : ∃ k, i = k + 1 := ⟨i - 1, by omega⟩
    simp only [Nat.add_zero, Nat.add_sub_cancel] at this ⊢
    rw [reps, if_pos this]
  | succ j ih =>
    have e := (h (j + 1) hj).trans (h j (by omega)).symm
    rw [← Nat.add_assoc] at e ⊢
    rw [reps, if_pos e, ih (by omega)]
    omega

theorem minRep_mod (z : Bool) (r : Nat) : minRep z r = minRep z (r % 64) := by
  unfold minRep; simp

theorem window_table : ∀ z : Bool, ∀ a < 64, ∀ k < 65, psum (fun j => minRep z (a + j + 1)) k ≤ 11 := by
  decide +kernel

theorem window (z : Bool) (a k : Nat) (hk : k ≤ 64) : psum (fun j => minRep z (a + j + 1)) k ≤ 11 := by
  have h := window_table z (a % 64) (Nat.mod_lt _ (by omega)) k (by omega)
  rw [psum_congr (g := fun j => minRep z (a % 64 + j + 1))]
  · exact h
  · intro j _
    rw [minRep_mod z (a + j + 1), minRep_mod z (a % 64 + j + 1)]
    congr 1; omega

theorem minRep_le (z : Bool) (r : Nat) : minRep z r ≤ 11 := by
  unfold minRep; split <;> (repeat' split) <;> omega

theorem template_min : ∀ (code : Nat) (acts : List Action), templates[code]? = some acts → 13 ≤ templateBits acts := by
  intro code acts h
  obtain ⟨hc, -⟩ := templates_ok code acts h
  interval_cases code <;> (simp only [templates] at h; obtain rfl := Option.some.inj h) <;>
    simp [templateBits, actionBits, indexBits]

theorem op_min {x out out' : List Byte} {op : Op} (hv : op.Valid) (hs : op.isShort = false) (h : OpStep out op out')
    (hx : out' <+: x) (hm : out.length % 8 = 0) :
    psum (minCost x) (out'.length / 8) ≤ psum (minCost x) (out.length / 8) + op.bits.length ∧ out'.length % 8 = 0 := by
  cases h with
  | @template code args _ hr =>
    obtain ⟨-, hok, hsum, -⟩ := templates_ok code _ hv.1
    have hl : out'.length = out.length + 8 := by
      have := Lib842.ArgsRun.length_sum hr
      rw [this, hsum]
    refine ⟨?_, by omega⟩
    rw [show out'.length / 8 = out.length / 8 + 1 by omega, psum]
    have h13 : 13 ≤ (Op.template code args).bits.length := by
      rw [template_bits_length]; exact template_min _ _ hv.1
    have hle := hx.length_le
    have e1 : out = x.take (8 * (out.length / 8)) := by
      rw [show 8 * (out.length / 8) = out.length by omega]
      exact List.prefix_iff_eq_take.1 ((ArgsRun.prefix_of hr).trans hx)
    have e2 : out' = x.take (8 * (out.length / 8) + 8) := by
      rw [show 8 * (out.length / 8) + 8 = out'.length by omega]
      exact List.prefix_iff_eq_take.1 hx
    have hmin : minCost x (out.length / 8) ≤ (Op.template code args).bits.length := by
      unfold minCost
      split
      · unfold firstCost
        split
        · omega
        · obtain ⟨-, -, b3, -, b5⟩ := (tabAt_rep x (out.length / 8)).blockOp (by omega) (by omega)
          refine b5 _ b3 code args hv ?_
          rw [← e1, ← e2]
          exact .template hr
      · have := minRep_le (zeroGroup x (out.length / 8)) (reps x (out.length / 8)); omega
    omega
  | @rep n h8 =>
    have hl : (out.drop (out.length - 8)).length = 8 := by simp; omega
    have hfl := length_repl hl (n := n + 1)
    rw [List.length_append, hfl]
    refine ⟨?_, by omega⟩
    rw [show (out.length + 8 * (n + 1)) / 8 = out.length / 8 + (n + 1) by omega, psum_add]
    have hg : ∀ j < n + 1, group x (out.length / 8 + j) = group x (out.length / 8 - 1) := fun j hj => group_rep h8 hm hx hj
    have hr := reps_of_rep (by omega) hg
    have he : psum (fun j => minCost x (out.length / 8 + j)) (n + 1) =
        psum (fun j => minRep (zeroGroup x (out.length / 8 - 1)) (reps x (out.length / 8 - 1) + j + 1)) (n + 1) := by
      refine psum_congr fun j hj => ?_
      have hz : zeroGroup x (out.length / 8 + j) = zeroGroup x (out.length / 8 - 1) := by
        rw [Bool.eq_iff_iff, zeroGroup_iff, zeroGroup_iff, hg j hj]
      rw [minCost, hr j hj, if_neg (by omega), hz]
    rw [he]
    have hn : n < 64 := hv
    have := window (zeroGroup x (out.length / 8 - 1)) (reps x (out.length / 8 - 1)) (n + 1) (by omega)
    simp only [Op.bits, List.length_append, length_bitsOf]
    omega
  | zeros =>
    rw [List.length_append, List.length_replicate]
    refine ⟨?_, by omega⟩
    rw [show (out.length + 8) / 8 = out.length / 8 + 1 by omega, psum]
    have hz : zeroGroup x (out.length / 8) = true := by
      rw [zeroGroup_iff]
      unfold group
      rw [show 8 * (out.length / 8) = out.length by omega]
      obtain ⟨z, rfl⟩ := hx
      rw [List.append_assoc, List.drop_left, List.take_append_of_le_length (by simp), List.take_of_length_le (by simp)]
    have : minCost x (out.length / 8) ≤ 5 := by
      unfold minCost firstCost minRep
      rw [hz]
      simp only [if_true]
      repeat' split
      all_goals omega
    simp only [Op.bits, length_bitsOf]
    omega
  | short => cases hs

theorem run_min {x out out' : List Byte} {ops : List Op} (hv : ∀ op ∈ ops, op.Valid) (hs : ∀ op ∈ ops, op.isShort = false)
    (h : Run out ops out') (hx : out' <+: x) (hm : out.length % 8 = 0) :
    psum (minCost x) (out'.length / 8) ≤ psum (minCost x) (out.length / 8) + (ops.flatMap Op.bits).length := by
  induction h with
  | nil => simp
  | @cons out op mid ops out' h1 h2 ih =>
    obtain ⟨a1, a2⟩ := op_min (hv op List.mem_cons_self) (hs op List.mem_cons_self) h1 ((Run.prefix_of h2).trans hx) hm
    have b1 := ih (fun o ho => hv o (List.mem_cons_of_mem _ ho)) (fun o ho => hs o (List.mem_cons_of_mem _ ho)) hx a2
    rw [List.flatMap_cons, List.length_append]
    omega

/-- A lower bound for the ops of every stream without short data -/
theorem expands_min {x : List Byte} {ops : List Op} (h : Expands ops x) (hs : ∀ op ∈ ops, op.isShort = false) :
    psum (minCost x) (x.length / 8) ≤ (ops.flatMap Op.bits).length := by
  have := run_min h.1 hs h.2 List.prefix_rfl rfl
  simpa [psum] using this

/-! ## The bound is attained -/

theorem Run.append {a b c : List Byte} {o1 o2 : List Op} (h1 : Run a o1 b) (h2 : Run b o2 c) : Run a (o1 ++ o2) c := by
  induction h1 with
  | nil => exact h2
  | cons h _ ih => exact .cons h (ih h2)

/-- The last `r` groups of the first `i` are copies. -/
theorem take_copies (x : List Byte) (i r : Nat) (hx : 8 * i ≤ x.length) (hr : r < i)
    (hg : ∀ j < r, group x (i - r + j) = group x (i - r - 1)) :
    x.take (8 * i) = x.take (8 * (i - r)) ++
      (List.replicate r ((x.take (8 * (i - r))).drop ((x.take (8 * (i - r))).length - 8))).flatten := by
  have e : (x.take (8 * (i - r))).drop ((x.take (8 * (i - r))).length - 8) = group x (i - r - 1) := by
    rw [List.length_take, Nat.min_eq_left (by omega), List.drop_take]
    unfold group
    rw [show 8 * (i - r) - 8 = 8 * (i - r - 1) by omega]
    congr 1; omega
  rw [e]
  obtain ⟨a, rfl⟩ : ∃ a, i = a + r := ⟨i - r, by omega⟩
  rw [Nat.add_sub_cancel] at hg ⊢
  clear e
  induction r with
  | zero => simp
  | succ r ih =>
    rw [show 8 * (a + (r + 1)) = 8 * (a + r) + 8 by omega, take_append_slice, slice_group, hg r (by omega),
      ih (by omega) (by omega) (fun j hj => hg j (by omega)), List.replicate_succ', List.flatten_concat, List.append_assoc]

theorem reps_le (x : List Byte) (i : Nat) : reps x i ≤ i := by
  induction i with
  | zero => exact Nat.le_refl _
  | succ i ih => unfold reps; split <;> omega

theorem reps_back (x : List Byte) (i d : Nat) (h : d ≤ reps x i) :
    reps x (i - d) = reps x i - d ∧ group x (i - d) = group x i := by
  induction d with
  | zero => simp
  | succ d ih =>
    obtain ⟨h1, h2⟩ := ih (by omega)
    have hle := reps_le x i
    obtain ⟨k, hk⟩ : ∃ k, i - d = k + 1 := ⟨i - d - 1, by omega⟩
    rw [hk] at h1 h2
    have := reps_zero_run x k (by omega)
    rw [show i - (d + 1) = k by omega]
    exact ⟨by omega, this.1.symm.trans h2⟩

/-- Repetitions up to number `r` of the current block of 64 cost 11 bits in all, from the third zero group or the first
non-zero group on. -/
theorem block_table : ∀ z : Bool, ∀ t < 64, (z = false ∨ 2 ≤ t) → psum (fun j => minRep z (j + 1)) (t + 1) = 11 := by
  decide +kernel

theorem block_sum (z : Bool) (a t : Nat) (ha : a % 64 = 0) (ht : t < 64) (h : z = false ∨ 2 ≤ t) :
    psum (fun j => minRep z (a + j + 1)) (t + 1) = 11 := by
  rw [← block_table z t ht h]
  refine psum_congr fun j _ => ?_
  rw [minRep_mod, minRep_mod z (j + 1)]
  congr 1; omega

/-- Every prefix of groups has an encoding of the minimal size. -/
theorem min_attained (x : List Byte) (i : Nat) (hi : 8 * i ≤ x.length) :
    ∃ ops, Expands ops (x.take (8 * i)) ∧ (∀ op ∈ ops, op.isShort = false) ∧
      (ops.flatMap Op.bits).length = psum (minCost x) i := by
  induction i using Nat.strongRecOn with
  | _ i ih =>
    cases i with
    | zero => exact ⟨[], ⟨by simp, by simpa using Run.nil⟩, by simp, rfl⟩
    | succ i =>
      -- append one op to the encoding of the first `k` groups
      have app : ∀ k op, k ≤ i → op.Valid → op.isShort = false → OpStep (x.take (8 * k)) op (x.take (8 * (i + 1))) →
          psum (minCost x) k + op.bits.length = psum (minCost x) (i + 1) →
          ∃ ops, Expands ops (x.take (8 * (i + 1))) ∧ (∀ op ∈ ops, op.isShort = false) ∧
            (ops.flatMap Op.bits).length = psum (minCost x) (i + 1) := by
        intro k op hk hv hs hst hb
        obtain ⟨ops, h1, h2, h3⟩ := ih k (by omega) (by omega)
        refine ⟨ops ++ [op], ⟨?_, Run.append h1.2 (.cons hst .nil)⟩, ?_, ?_⟩
        · intro o ho
          rcases List.mem_append.1 ho with ho | ho
          · exact h1.1 o ho
          · rw [List.mem_singleton.1 ho]; exact hv
        · intro o ho
          rcases List.mem_append.1 ho with ho | ho
          · exact h2 o ho
          · rw [List.mem_singleton.1 ho]; exact hs
        · rw [List.flatMap_append, List.length_append, h3, ← hb]; simp
      have hz : zeroGroup x i = true → OpStep (x.take (8 * i)) .zeros (x.take (8 * (i + 1))) := by
        intro hz
        rw [show 8 * (i + 1) = 8 * i + 8 by omega, take_append_slice, slice_group, (zeroGroup_iff x i).1 hz]
        exact .zeros
      by_cases h0 : reps x i = 0
      · by_cases hzi : zeroGroup x i = true
        · refine app i .zeros (Nat.le_refl _) trivial rfl (hz hzi) ?_
          rw [psum, minCost, if_pos h0, firstCost, if_pos hzi]
          simp [Op.bits]
        · obtain ⟨b1, b2, b3, -⟩ := (tabAt_rep x i).blockOp (by omega) (by omega)
          refine app i _ (Nat.le_refl _) b1 b2 (by rw [show 8 * (i + 1) = 8 * i + 8 by omega]; exact b3) ?_
          rw [psum, minCost, if_pos h0, firstCost, if_neg hzi]
          rfl
      · -- repetition number `t + 1` of its block of 64
        have ht : (reps x i - 1) % 64 < 64 := Nat.mod_lt _ (by omega)
        generalize htt : (reps x i - 1) % 64 = t at ht
        by_cases hsm : zeroGroup x i = true ∧ t < 2
        · refine app i .zeros (Nat.le_refl _) trivial rfl (hz hsm.1) ?_
          rw [psum, minCost, if_neg h0, hsm.1, minRep]
          simp only [if_true, Op.bits, length_bitsOf]
          split <;> (try split) <;> omega
        · have hle := reps_le x i
          have htr : t + 1 ≤ reps x i := by omega
          have hg : ∀ j < t + 1, group x (i - t + j) = group x (i - t - 1) := by
            intro j hj
            have a1 := (reps_back x i (t - j) (by omega)).2
            have a2 := (reps_back x i (t + 1) (by omega)).2
            rw [show i - t + j = i - (t - j) by omega, a1, show i - t - 1 = i - (t + 1) by omega, a2]
          have hcop := take_copies x (i + 1) (t + 1) hi (by omega)
            (by rw [show i + 1 - (t + 1) = i - t by omega]; exact hg)
          rw [show i + 1 - (t + 1) = i - t by omega] at hcop
          refine app (i - t) (.rep t) (by omega) ht rfl ?_ ?_
          · rw [hcop]
            exact .rep (by rw [List.length_take]; omega)
          · rw [show i + 1 = i - t + (t + 1) by omega, psum_add]
            have hr := reps_of_rep (x := x) (i := i - t) (n := t + 1) (by omega) hg
            have hz' : ∀ j < t + 1, zeroGroup x (i - t + j) = zeroGroup x i := by
              intro j hj
              rw [Bool.eq_iff_iff, zeroGroup_iff, zeroGroup_iff, hg j hj, ← hg t (by omega), show i - t + t = i by omega]
            have hb := reps_back x i (t + 1) htr
            have he : psum (fun j => minCost x (i - t + j)) (t + 1) =
                psum (fun j => minRep (zeroGroup x i) (reps x (i - t - 1) + j + 1)) (t + 1) := by
              refine psum_congr fun j hj => ?_
              rw [minCost, hr j hj, if_neg (by omega), hz' j hj]
            have hmod : reps x (i - t - 1) % 64 = 0 := by
              rw [show i - t - 1 = i - (t + 1) by omega, hb.1]; omega
            rw [he, block_sum _ _ t hmod ht]
            · simp [Op.bits]
            · by_cases hzi : zeroGroup x i = true
              · right; have : ¬ t < 2 := fun h => hsm ⟨hzi, h⟩
                omega
              · left; exact Bool.eq_false_iff.2 hzi

/-! ## How much longer than the shortest one -/

theorem tmplCost_ge (x : List Byte) (i : Nat) (hi : 8 * i + 8 ≤ x.length) : 13 ≤ tmplCost x i := by
  unfold tmplCost
  obtain ⟨code, args, he⟩ := (tabAt x i).blockOp_template x (8 * i)
  obtain ⟨hv, -⟩ := (tabAt_rep x i).blockOp (by omega) hi
  rw [he] at hv ⊢
  rw [template_bits_length]
  exact template_min _ _ hv.1

theorem runWaste_le (r : Nat) : runWaste r ≤ 6 := by
  unfold runWaste; split <;> (try split) <;> omega

theorem runWaste_zero : runWaste 0 = 0 := rfl

/-- Six times the bits that the open run of zero groups is known to take -/
def bank (r : Nat) : Nat := if r = 0 then 30 else 60

theorem waste_ratio (x : List Byte) (m : Nat) (hm : 8 * (m + 1) ≤ x.length) :
    23 * psum (endWaste x) m + (if zeroGroup x m then bank (reps x m) else 0) ≤ 6 * psum (minCost x) (m + 1) := by
  induction m with
  | zero =>
    simp only [psum, minCost, reps, firstCost, bank, if_true]
    split <;> omega
  | succ m ih =>
    have ih := ih (by omega)
    rw [psum.eq_2 (endWaste x), psum.eq_2 (minCost x)]
    by_cases h1 : zeroGroup x m = true
    · rw [if_pos h1] at ih
      by_cases h2 : zeroGroup x (m + 1) = true
      · have hr := zeroGroup_succ h1 h2
        have e : endWaste x m = 0 := by unfold endWaste; rw [h1, h2]; simp
        rw [if_pos h2, e]
        by_cases h0 : reps x m = 0
        · have hc : minCost x (m + 1) = 5 := by
            unfold minCost
            rw [hr, h0, h2]
            simp [minRep]
          rw [h0] at hr
          rw [hc, hr]
          rw [h0] at ih
          simp only [bank] at ih ⊢
          simp at ih ⊢
          omega
        · unfold bank at ih ⊢
          rw [if_neg h0] at ih
          rw [if_neg (by omega)]
          omega
      · have hr : reps x (m + 1) = 0 := by
          by_contra h
          have := (reps_zero_run x m h).1
          rw [zeroGroup_iff] at h1 h2
          exact h2 (this.trans h1)
        have hc : 13 ≤ minCost x (m + 1) := by
          unfold minCost firstCost
          rw [if_pos hr, if_neg h2]
          exact tmplCost_ge x _ (by omega)
        rw [if_neg h2]
        have e : endWaste x m ≤ runWaste (reps x m) := by
          unfold endWaste; split <;> omega
        by_cases h0 : reps x m = 0
        · rw [h0, runWaste_zero] at e
          omega
        · unfold bank at ih
          rw [if_neg h0] at ih
          have := runWaste_le (reps x m)
          omega
    · rw [if_neg h1] at ih
      have e : endWaste x m = 0 := by unfold endWaste; rw [Bool.eq_false_iff.2 h1]; simp
      rw [e]
      split
      · rename_i h2
        have hr := zeroGroup_first h1 h2
        have hc : minCost x (m + 1) = 5 := by
          unfold minCost firstCost
          rw [if_pos hr, if_pos h2]
        rw [hc, hr]
        simp only [bank, if_true]
        omega
      · omega

theorem zeroWaste_ratio (x : List Byte) : 23 * zeroWaste x ≤ 6 * psum (minCost x) (x.length / 8) + 78 := by
  have hw : zeroWaste x = psum (endWaste x) (x.length / 8) := psum_list _ _
  rw [hw]
  rcases hm : x.length / 8 with _ | m
  · simp [psum]
  · have h := waste_ratio x m (by omega)
    rw [psum.eq_2 (endWaste x)]
    have e : endWaste x m ≤ runWaste (reps x m) := by
      unfold endWaste; split <;> omega
    have := runWaste_le (reps x m)
    by_cases h1 : zeroGroup x m = true
    · rw [if_pos h1] at h
      by_cases h0 : reps x m = 0
      · rw [h0, runWaste_zero] at e; omega
      · unfold bank at h
        rw [if_neg h0] at h
        omega
    · have e : endWaste x m = 0 := by unfold endWaste; rw [Bool.eq_false_iff.2 h1]; simp
      omega

/-- Size of the ops of `sw842_compress` against every other encoding, and the encoding that attains the minimum -/
theorem refOps_min {x : List Byte} (hx : x.length % 8 = 0) :
    (∀ ops, Expands ops x → (∀ op ∈ ops, op.isShort = false) →
      ((refOps x).flatMap Op.bits).length ≤ (ops.flatMap Op.bits).length + zeroWaste x) ∧
    ∃ ops, Expands ops x ∧ (∀ op ∈ ops, op.isShort = false) ∧
      ((refOps x).flatMap Op.bits).length = (ops.flatMap Op.bits).length + zeroWaste x := by
  rw [refOps_cost hx, sw_waste]
  refine ⟨fun ops h hs => by have := expands_min h hs; omega, ?_⟩
  obtain ⟨ops, h1, h2, h3⟩ := min_attained x (x.length / 8) (by omega)
  rw [List.take_of_length_le (by omega)] at h1
  exact ⟨ops, h1, h2, by rw [h3]⟩

end Lib842
