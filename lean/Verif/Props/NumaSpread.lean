import Verif.Proofs.NumaSpread
import Mathlib.Data.List.Nodup
/-!
# Property theorems for the spreading of threads among NUMA nodes (C78)
-/

namespace Lib842

namespace Props

/-- The nodes whose memory may be used -/
def numaNodes (m : NumaMachine) : List Nat := (List.range (m.maxNode + 1)).filter m.memAllowed

/-- The CPUs of node `n` with a number below the number of CPUs (and below 1024), as far as the process may use them -/
def numaCpus (m : NumaMachine) (n : Nat) : List Nat :=
  (List.range m.nprocs).filter fun c => m.nodeCpu n c && decide (c < 1024) && m.usable c

theorem sets_get (m : NumaMachine) (ha : m.available = true) (t : Nat) (hne : numaNodes m ≠ []) :
    (numaCpusets m).length = (numaNodes m).length ∧
      ((numaCpusets m).getD (t % (numaNodes m).length) []).filter m.usable =
        numaCpus m ((numaNodes m).getD (t % (numaNodes m).length) 0) := by
  have he : numaCpusets m = (numaNodes m).map (numaCpuset m) := by
    unfold numaCpusets numaNodes
    rw [if_pos ha, numaCpusetsFrom_eq, List.range_eq_range']
  have hlt : t % (numaNodes m).length < (numaNodes m).length := Nat.mod_lt _ (List.length_pos_iff.2 hne)
  refine ⟨by rw [he, List.length_map], ?_⟩
  rw [he, List.getD_eq_getElem?_getD, List.getElem?_map, List.getD_eq_getElem?_getD, List.getElem?_eq_getElem hlt]
  simp only [Option.map_some, Option.getD_some]
  unfold numaCpuset numaCpus
  rw [List.filter_filter]
  congr 1
  funext c
  exact Bool.and_comm _ _

/-- C78, what happens in all cases: if the first `p` threads get a node with a CPU to run on, and the next one does not (or
there are no more threads), these `p` threads are bound to the CPUs of their nodes, one node after the other, and the
others stay where they were. -/
theorem C78_outcome (m : NumaMachine) (T : Nat) (aff : Nat → List Nat) (ha : m.available = true) (hne : numaNodes m ≠ [])
    (p : Nat) (hp : p ≤ T) (hok : ∀ t < p, numaCpus m ((numaNodes m).getD (t % (numaNodes m).length) 0) ≠ [])
    (hstop : p = T ∨ numaCpus m ((numaNodes m).getD (p % (numaNodes m).length) 0) = []) (t : Nat) :
    spreadThreads m T aff t =
      if t < p then numaCpus m ((numaNodes m).getD (t % (numaNodes m).length) 0) else aff t := by
  have hl := (sets_get m ha 0 hne).1
  have hg := fun t => (sets_get m ha t hne).2
  unfold spreadThreads
  rw [if_neg (by intro h; rw [h] at hl; exact hne (List.length_eq_zero_iff.1 hl.symm))]
  rw [spreadFrom_spec m _ T 0 aff p hp (fun t _ h => by rw [hl, hg]; exact hok t (by omega))
    (by rw [hl, Nat.zero_add, hg]; exact hstop)]
  rw [hl, hg]
  by_cases h : t < p
  · rw [if_pos (by omega), if_pos h]
  · rw [if_neg (by omega), if_neg h]

/-- C78, partial: if every node with usable memory has a CPU to run on, numbered below the number of CPUs, each
thread is bound to the CPUs of one node, and the numbers of threads of any two nodes differ by at most one. -/
theorem C78_spread_partial (m : NumaMachine) (T : Nat) (aff : Nat → List Nat) (ha : m.available = true) (hne : numaNodes m ≠ [])
    (hcpu : ∀ n ∈ numaNodes m, numaCpus m n ≠ []) :
    ∃ node : Nat → Nat, (∀ t < T, node t ∈ numaNodes m ∧ spreadThreads m T aff t = numaCpus m (node t)) ∧
      ∀ n ∈ numaNodes m, ∀ n' ∈ numaNodes m,
        ((List.range T).filter fun t => node t = n).length ≤ ((List.range T).filter fun t => node t = n').length + 1 := by
  have hlt : ∀ t, t % (numaNodes m).length < (numaNodes m).length := fun t => Nat.mod_lt _ (List.length_pos_iff.2 hne)
  have hget : ∀ t, (numaNodes m).getD (t % (numaNodes m).length) 0 = (numaNodes m)[t % (numaNodes m).length]'(hlt t) := by
    intro t
    rw [List.getD_eq_getElem?_getD, List.getElem?_eq_getElem (hlt t)]
    rfl
  have hmem : ∀ t, (numaNodes m).getD (t % (numaNodes m).length) 0 ∈ numaNodes m := fun t => by
    rw [hget]; exact List.getElem_mem _
  refine ⟨fun t => (numaNodes m).getD (t % (numaNodes m).length) 0, fun t ht => ⟨hmem t, ?_⟩, ?_⟩
  · rw [C78_outcome m T aff ha hne T (Nat.le_refl _) (fun t _ => hcpu _ (hmem t)) (.inl rfl), if_pos ht]
  · have hnd : (numaNodes m).Nodup := List.nodup_range.filter _
    have hcount : ∀ a, (h : a < (numaNodes m).length) →
        ((List.range T).filter fun t => (numaNodes m).getD (t % (numaNodes m).length) 0 = (numaNodes m)[a]).length =
          (T + ((numaNodes m).length - 1 - a)) / (numaNodes m).length := by
      intro a h
      rw [← count_mod _ a h]
      congr 2
      funext t
      rw [hget, decide_eq_decide]
      exact List.Nodup.getElem_inj_iff hnd
    intro n hn n' hn'
    obtain ⟨a, h, rfl⟩ := List.getElem_of_mem hn
    obtain ⟨b, h', rfl⟩ := List.getElem_of_mem hn'
    rw [hcount a h, hcount b h', ← Nat.add_div_right _ (Nat.zero_lt_of_lt h)]
    exact Nat.div_le_div_right (by omega)

/-- If the CPUs are numbered without gaps and there are at most 1024 of them, all usable, the CPUs a thread is bound to are
all the CPUs of the node. -/
theorem C78_whole_node (m : NumaMachine) (n c : Nat) (hn : m.nprocs ≤ 1024) (hc : ∀ c, m.nodeCpu n c = true → c < m.nprocs ∧ m.usable c = true) :
    c ∈ numaCpus m n ↔ m.nodeCpu n c = true := by
  unfold numaCpus
  rw [List.mem_filter, List.mem_range]
  constructor
  · rintro ⟨-, h⟩
    simp only [Bool.and_eq_true] at h
    exact h.1.1
  · intro h
    obtain ⟨h1, h2⟩ := hc c h
    refine ⟨h1, ?_⟩
    simp only [h, h2, Bool.and_true, Bool.true_and, decide_eq_true_eq]
    omega

/-- Two nodes with two CPUs each -/
def numaTwo : NumaMachine := ⟨true, 1, fun n => decide (n < 2), fun n c => decide (c / 2 = n), 4, fun c => decide (c < 4)⟩

example : numaNodes numaTwo = [0, 1] ∧ (∀ n ∈ numaNodes numaTwo, numaCpus numaTwo n ≠ []) ∧
    (List.range 5).map (spreadThreads numaTwo 5 fun _ => [0, 1, 2, 3]) = [[0, 1], [2, 3], [0, 1], [2, 3], [0, 1]] := by
  decide

/-- C78 is false with a node that has memory but no CPUs: if it comes at place `p` among the nodes, only the first `p`
threads are bound, however many threads and other nodes there are. -/
theorem C78_memory_only_node_false (m : NumaMachine) (T : Nat) (aff : Nat → List Nat) (ha : m.available = true) (p n : Nat)
    (hp : (numaNodes m)[p]? = some n) (hno : ∀ c, m.nodeCpu n c = false) (hfirst : ∀ q < p, ∀ n', (numaNodes m)[q]? = some n' → numaCpus m n' ≠ [])
    (t : Nat) (ht : p ≤ t) : spreadThreads m T aff t = aff t := by
  have hpl := (List.getElem?_eq_some_iff.1 hp).1
  have hne : numaNodes m ≠ [] := by intro h; rw [h] at hp; cases hp
  have hok : ∀ q < p, numaCpus m ((numaNodes m).getD (q % (numaNodes m).length) 0) ≠ [] := by
    intro q hq
    rw [Nat.mod_eq_of_lt (by omega), List.getD_eq_getElem?_getD, List.getElem?_eq_getElem (by omega)]
    exact hfirst q hq _ (List.getElem?_eq_getElem _)
  have hempty : numaCpus m ((numaNodes m).getD (p % (numaNodes m).length) 0) = [] := by
    rw [Nat.mod_eq_of_lt hpl, List.getD_eq_getElem?_getD, hp]
    show numaCpus m n = []
    unfold numaCpus
    rw [List.filter_eq_nil_iff]
    intro c _
    simp [hno c]
  by_cases h : p ≤ T
  · rw [C78_outcome m T aff ha hne p h hok (.inr hempty), if_neg (by omega)]
  · rw [C78_outcome m T aff ha hne T (Nat.le_refl _) (fun q hq => hok q (by omega)) (.inl rfl), if_neg (by omega)]

/-- Node 0 has memory only: no thread is bound to a node, though nodes 1 and 2 have CPUs. -/
def numaCxl : NumaMachine := ⟨true, 2, fun n => decide (n < 3), fun n c => decide (c / 2 + 1 = n), 4, fun c => decide (c < 4)⟩

example : (List.range 3).map (spreadThreads numaCxl 3 fun _ => [0, 1, 2, 3]) = [[0, 1, 2, 3], [0, 1, 2, 3], [0, 1, 2, 3]] := by
  decide

/-- C78 is false with gaps in the numbers of the CPUs (hyper-threading switched off, say): no thread is bound to a CPU whose
number is not below the number of CPUs, if it could not run there before. -/
theorem C78_sparse_cpus_false (m : NumaMachine) (T : Nat) (aff : Nat → List Nat) (t c : Nat) (hc : m.nprocs ≤ c)
    (hmem : c ∈ spreadThreads m T aff t) : spreadThreads m T aff t = aff t := by
  have hnot : ∀ sets : List (List Nat), (∀ s ∈ sets, ∀ x ∈ s, x < m.nprocs) → ∀ k i (aff' : Nat → List Nat),
      (c ∈ aff' t → aff' t = aff t) → c ∈ spreadFrom m sets i aff' k t → spreadFrom m sets i aff' k t = aff t := by
    intro sets hs k
    induction k with
    | zero => intro i aff' h h'; exact h h'
    | succ k ih =>
      intro i aff' h h'
      unfold spreadFrom setAffinity at h' ⊢
      by_cases he : (sets.getD (i % sets.length) []).filter m.usable = []
      · rw [if_pos he] at h' ⊢
        exact h h'
      · rw [if_neg he] at h' ⊢
        refine ih (i + 1) _ ?_ h'
        intro hx
        by_cases hti : t = i
        · simp only [if_pos hti] at hx
          have hx := (List.mem_filter.1 hx).1
          rw [List.getD_eq_getElem?_getD] at hx
          cases hg : sets[i % sets.length]? with
          | none => rw [hg] at hx; cases hx
          | some s =>
            rw [hg] at hx
            have := hs s (List.mem_of_getElem? hg) c hx
            omega
        · simp only [if_neg hti] at hx ⊢
          exact h hx
  unfold spreadThreads at hmem ⊢
  split at hmem
  · rename_i h; rw [if_pos h]
  · rename_i h
    rw [if_neg h]
    refine hnot _ ?_ T 0 aff (fun _ => rfl) hmem
    intro s hs x hx
    unfold numaCpusets at hs
    split at hs
    · rw [numaCpusetsFrom_eq] at hs
      obtain ⟨n, -, rfl⟩ := List.mem_map.1 hs
      exact List.mem_range.1 (List.mem_filter.1 hx).1
    · cases hs

/-- Every other CPU is offline: CPUs 0 and 2 are on node 0, CPUs 4 and 6 on node 1.  There are 4 CPUs, node 1 seems
to have none, and spreading stops with thread 1. -/
def numaSparse : NumaMachine :=
  ⟨true, 1, fun n => decide (n < 2), fun n c => decide (c % 2 = 0 ∧ c / 4 = n), 4, fun c => decide (c % 2 = 0 ∧ c < 8)⟩

example : (List.range 4).map (spreadThreads numaSparse 4 fun _ => [0, 2, 4, 6]) =
    [[0, 2], [0, 2, 4, 6], [0, 2, 4, 6], [0, 2, 4, 6]] := by
  decide

end Props
end Lib842
