import Verif.Props.NumaSpread
import Verif.Proofs.NumaTrace
/-!
# Property theorems for the trace output of the spreading of threads (C116)
-/

namespace Lib842

namespace Props

/-- CPU `c` is in the item of a list of CPUs: a decimal number, or two with a minus sign between, which is a range -/
def CpuItemHas (item : List Char) (c : Nat) : Prop :=
  match item.splitOn '-' with
  | [a] => c = Nat.ofDigitChars 10 a 0
  | [a, b] => Nat.ofDigitChars 10 a 0 ≤ c ∧ c ≤ Nat.ofDigitChars 10 b 0
  | _ => False

/-- CPU `c` is in the list of CPUs written as items with commas between (as in `/sys/devices/system/cpu/online`) -/
def CpuListHas (t : List Char) (c : Nat) : Prop := ∃ item ∈ t.splitOn ',', CpuItemHas item c

theorem itemHas (r : Nat × Nat) (h : r.1 ≤ r.2) (c : Nat) : CpuItemHas (cpuItem' r) c ↔ r.1 ≤ c ∧ c ≤ r.2 := by
  unfold CpuItemHas
  rw [item_split]
  by_cases he : r.1 = r.2
  · rw [if_pos he]
    simp only [Nat.ofDigitChars_ten_toDigits]
    omega
  · rw [if_neg he]
    simp only [Nat.ofDigitChars_ten_toDigits]

theorem text_items (rs : List (Nat × Nat)) (hne : rs ≠ []) :
    ([','].intercalate (rs.map cpuItem')).splitOn ',' = rs.map cpuItem' := by
  refine List.splitOn_intercalate ',' ?_ (by simpa using hne)
  intro l hl
  obtain ⟨r, -, rfl⟩ := List.mem_map.1 hl
  exact comma_not_mem r

theorem textHas (s : List Nat) (rs : List (Nat × Nat)) (hne : rs ≠ []) (hr : CpuRanges s 0 rs) (c : Nat) :
    CpuListHas ([','].intercalate (rs.map cpuItem')) c ↔ c < 1024 ∧ c ∈ s := by
  unfold CpuListHas
  rw [text_items rs hne]
  have := hr.mem c
  constructor
  · rintro ⟨item, hi, hc⟩
    obtain ⟨r, hm, rfl⟩ := List.mem_map.1 hi
    exact (this.1 ⟨r, hm, (itemHas r (hr.le r hm) c).1 hc⟩).2
  · intro h
    obtain ⟨r, hm, hc⟩ := this.2 ⟨Nat.zero_le _, h⟩
    exact ⟨_, List.mem_map.2 ⟨r, hm, rfl⟩, (itemHas r (hr.le r hm) c).2 hc⟩

/-- C116: the text of a set with some CPU consists of digits, commas and minus signs, and read as a list of CPUs has exactly
the CPUs of the set. -/
theorem C116_text (s : List Nat) (h : ∃ c ∈ s, c < 1024) : ∃ t, cpuSetToString s = some t ∧
    (∀ ch ∈ t, ch.isDigit = true ∨ ch = '-' ∨ ch = ',') ∧ ∀ c, CpuListHas t c ↔ c < 1024 ∧ c ∈ s := by
  obtain ⟨rs, hne, hr, heq⟩ := cpuSetToString_spec s h
  refine ⟨_, heq, ?_, textHas s rs hne hr⟩
  intro ch hch
  clear heq hr hne
  induction rs with
  | nil => simp [List.intercalate] at hch
  | cons r rs ih =>
    cases rs with
    | nil =>
      simp only [List.intercalate, List.map_cons, List.map_nil, List.intersperse, List.flatten_cons, List.flatten_nil,
        List.append_nil] at hch
      rcases item_chars r ch hch with h | h
      · exact .inl h
      · exact .inr (.inl h)
    | cons r' rs =>
      have hi : [','].intercalate ((r :: r' :: rs).map cpuItem') = cpuItem' r ++ ',' :: [','].intercalate ((r' :: rs).map cpuItem') := by
        simp [List.intercalate, List.intersperse]
      rw [hi] at hch
      rcases List.mem_append.1 hch with h | h
      · rcases item_chars r ch h with h | h
        · exact .inl h
        · exact .inr (.inl h)
      · rcases List.mem_cons.1 h with h | h
        · exact .inr (.inr h)
        · exact ih h

/-- The last CPU of an item -/
def cpuItemLast (item : List Char) : Nat :=
  match item.splitOn '-' with
  | [a] => Nat.ofDigitChars 10 a 0
  | [_, b] => Nat.ofDigitChars 10 b 0
  | _ => 0

theorem item_last {item : List Char} {c : Nat} (h : CpuItemHas item c) (h' : ¬CpuItemHas item (c + 1)) : cpuItemLast item = c := by
  unfold CpuItemHas at h h'
  unfold cpuItemLast
  split at h
  · exact h.symm
  · rename_i a b heq
    rw [heq] at h'
    simp only at h' ⊢
    omega
  · cases h

/-- C116: no list with fewer items has the same CPUs. -/
theorem C116_shortest (s : List Nat) (t t' : List Char) (ht : cpuSetToString s = some t)
    (h : ∀ c, CpuListHas t' c ↔ CpuListHas t c) : (t.splitOn ',').length ≤ (t'.splitOn ',').length := by
  have hs : ∃ c ∈ s, c < cpuSetSize := by
    apply Classical.byContradiction
    intro hn
    rw [cpuSetToString_none s fun c hc => Nat.le_of_not_lt fun hl => hn ⟨c, hc, hl⟩] at ht
    cases ht
  obtain ⟨rs, hne, hr, heq⟩ := cpuSetToString_spec s hs
  rw [heq] at ht
  obtain rfl := Option.some.inj ht
  have hlen : (([','].intercalate (rs.map cpuItem')).splitOn ',').length = (rs.map (·.2)).length := by
    rw [text_items rs hne, List.length_map, List.length_map]
  rw [hlen, ← List.length_map (f := cpuItemLast) (as := t'.splitOn ',')]
  refine List.Nodup.length_le_of_subset ?_ ?_
  · refine List.pairwise_map.2 ((List.Pairwise.and_mem.1 hr.gaps).imp ?_)
    intro a b hab heq
    have := hr.le b hab.2.1
    have := hab.2.2
    omega
  · intro e he
    obtain ⟨r, hm, rfl⟩ := List.mem_map.1 he
    have h1 : CpuListHas t' r.2 := (h _).2 ((textHas s rs hne hr _).2 ((hr.mem r.2).1 ⟨r, hm, hr.le r hm, Nat.le_refl _⟩).2)
    have h2 : ¬CpuListHas t' (r.2 + 1) := by
      intro hx
      obtain ⟨h3, h4⟩ := (textHas s rs hne hr _).1 ((h _).1 hx)
      obtain ⟨r', hm', h5, h6⟩ := (hr.mem (r.2 + 1)).2 ⟨Nat.zero_le _, h3, h4⟩
      by_cases heq : r = r'
      · rw [heq] at h6; omega
      · obtain ⟨i, hi, rfl⟩ := List.getElem_of_mem hm
        obtain ⟨j, hj, rfl⟩ := List.getElem_of_mem hm'
        have hp := List.pairwise_iff_getElem.1 hr.gaps
        rcases Nat.lt_trichotomy i j with hij | hij | hij
        · have := hp i j hi hj hij; omega
        · subst hij; exact heq rfl
        · have := hp j i hj hi hij
          have := hr.le _ hm
          omega
    obtain ⟨item, hi, hc⟩ := h1
    exact List.mem_map.2 ⟨item, hi, item_last hc fun hx => h2 ⟨item, hi, hx⟩⟩

/-- C116: different sets have different texts. -/
theorem C116_distinct (s s' : List Nat) (t : List Char) (h : cpuSetToString s = some t) (h' : cpuSetToString s' = some t)
    (c : Nat) (hc : c < 1024) : c ∈ s ↔ c ∈ s' := by
  have key : ∀ s, cpuSetToString s = some t → (CpuListHas t c ↔ c < 1024 ∧ c ∈ s) := by
    intro s h
    have hs : ∃ c ∈ s, c < cpuSetSize := by
      apply Classical.byContradiction
      intro hn
      rw [cpuSetToString_none s fun c hc => Nat.le_of_not_lt fun hl => hn ⟨c, hc, hl⟩] at h
      cases h
    obtain ⟨t', h1, -, h2⟩ := C116_text s hs
    rw [h] at h1
    obtain rfl := Option.some.inj h1
    exact h2 c
  have h1 := key s h
  have h2 := key s' h'
  constructor
  · intro hx; exact (h2.1 (h1.2 ⟨hc, hx⟩)).2
  · intro hx; exact (h1.1 (h2.2 ⟨hc, hx⟩)).2

example : cpuSetToString [0, 1, 2, 5, 7, 8, 1023] = some "0-2,5,7-8,1023".toList := by decide +kernel

theorem numaSets_eq (m : NumaMachine) (ha : m.available = true) : numaCpusets m = (numaNodes m).map (numaCpuset m) := by
  unfold numaCpusets numaNodes
  rw [if_pos ha, numaCpusetsFrom_eq, List.range_eq_range']

theorem mem_cpuset (m : NumaMachine) (n c : Nat) : c ∈ numaCpuset m n ↔ c < m.nprocs ∧ m.nodeCpu n c = true ∧ c < 1024 := by
  unfold numaCpuset cpuSetSize
  simp only [List.mem_filter, List.mem_range, Bool.and_eq_true, decide_eq_true_eq]

/-- C116, partial: if every node with usable memory has a CPU with a number below the number of CPUs and 1024, the threads are bound
with the trace as without it (the trace is only output). -/
theorem C116_trace_same_partial (m : NumaMachine) (first : Bool) (T : Nat) (aff : Nat → List Nat)
    (hcpu : ∀ n ∈ numaNodes m, ∃ c, c < m.nprocs ∧ c < 1024 ∧ m.nodeCpu n c = true) :
    ∃ out, spreadThreadsT m first T aff = some (spreadThreads m T aff, out) := by
  have hall : ∀ s ∈ numaCpusets m, ∃ c ∈ s, c < cpuSetSize := by
    intro s hs
    by_cases ha : m.available = true
    · rw [numaSets_eq m ha] at hs
      obtain ⟨n, hn, rfl⟩ := List.mem_map.1 hs
      obtain ⟨c, h1, h2, h3⟩ := hcpu n hn
      exact ⟨c, (mem_cpuset m n c).2 ⟨h1, h3, h2⟩, h2⟩
    · unfold numaCpusets at hs
      rw [if_neg ha] at hs
      cases hs
  obtain ⟨out, ho⟩ : ∃ out, (if first then traceSets 0 (numaCpusets m) else some []) = some out := by
    cases first
    · exact ⟨[], rfl⟩
    · exact traceSets_some _ 0 hall
  unfold spreadThreadsT spreadThreads
  rw [ho]
  simp only
  by_cases h : numaCpusets m = []
  · rw [if_pos h, if_pos h]; exact ⟨out, rfl⟩
  · rw [if_neg h, if_neg h]
    obtain ⟨t, ht⟩ := spreadFromT_same m _ h hall T 0 aff out
    exact ⟨_, ht⟩

example : ∀ n ∈ numaNodes numaTwo, ∃ c, c < numaTwo.nprocs ∧ c < 1024 ∧ numaTwo.nodeCpu n c = true := by
  intro n hn
  have : n = 0 ∨ n = 1 := by
    have : numaNodes numaTwo = [0, 1] := by decide
    rw [this] at hn
    simpa using hn
  rcases this with rfl | rfl
  · exact ⟨0, by decide⟩
  · exact ⟨2, by decide⟩

/-- C116 is false with a node without a CPU (a node of memory only, say): with the trace the first call is undefined,
whatever the other nodes are and even for no threads. -/
theorem C116_memory_only_node_false (m : NumaMachine) (T : Nat) (aff : Nat → List Nat) (ha : m.available = true) (n : Nat)
    (hn : n ∈ numaNodes m) (hno : ∀ c, c < m.nprocs → c < 1024 → m.nodeCpu n c = false) : spreadThreadsT m true T aff = none := by
  unfold spreadThreadsT
  rw [if_pos rfl, traceSets_none]
  refine ⟨numaCpuset m n, ?_, ?_⟩
  · rw [numaSets_eq m ha]
    exact List.mem_map.2 ⟨n, hn, rfl⟩
  · intro c hc
    obtain ⟨h1, h2, h3⟩ := (mem_cpuset m n c).1 hc
    rw [hno c h1 h3] at h2
    cases h2

example : (0 ∈ numaNodes numaCxl ∧ ∀ c, c < numaCxl.nprocs → c < 1024 → numaCxl.nodeCpu 0 c = false) ∧
    spreadThreadsT numaCxl true 3 (fun _ => [0, 1, 2, 3]) = none := by
  have h : ∀ c, c < numaCxl.nprocs → c < 1024 → numaCxl.nodeCpu 0 c = false := by
    intro c _ _
    show decide (c / 2 + 1 = 0) = false
    simp
  exact ⟨⟨by decide, h⟩, C116_memory_only_node_false numaCxl 3 _ rfl 0 (by decide) h⟩

/-- C116: in a later call, if every node with usable memory has a CPU to run on, there is one line for each thread, in order, and the list of
CPUs in it has exactly the CPUs of the node of the thread (those with numbers below the number of CPUs and 1024). -/
theorem C116_lines (m : NumaMachine) (T : Nat) (aff : Nat → List Nat) (ha : m.available = true) (hne : numaNodes m ≠ [])
    (hcpu : ∀ n ∈ numaNodes m, numaCpus m n ≠ []) :
    ∃ text : Nat → List Char,
      (∀ t c, CpuListHas (text t) c ↔
        c < 1024 ∧ c < m.nprocs ∧ m.nodeCpu ((numaNodes m).getD (t % (numaNodes m).length) 0) c = true) ∧
      spreadThreadsT m false T aff = some (spreadThreads m T aff, (List.range T).flatMap fun t =>
        "Assigning thread ".toList ++ (toString t).toList ++ " to CPU set ".toList ++ text t ++ "\n".toList) := by
  have hget : ∀ t, (numaCpusets m).getD (t % (numaCpusets m).length) [] =
      numaCpuset m ((numaNodes m).getD (t % (numaNodes m).length) 0) := by
    intro t
    have hlt : t % (numaNodes m).length < (numaNodes m).length := Nat.mod_lt _ (List.length_pos_iff.2 hne)
    rw [numaSets_eq m ha, List.length_map, List.getD_eq_getElem?_getD, List.getElem?_map, List.getD_eq_getElem?_getD,
      List.getElem?_eq_getElem hlt]
    rfl
  have hmem : ∀ t, (numaNodes m).getD (t % (numaNodes m).length) 0 ∈ numaNodes m := by
    intro t
    have hlt : t % (numaNodes m).length < (numaNodes m).length := Nat.mod_lt _ (List.length_pos_iff.2 hne)
    rw [List.getD_eq_getElem?_getD, List.getElem?_eq_getElem hlt]
    exact List.getElem_mem _
  have huse : ∀ n ∈ numaNodes m, ∃ c, c ∈ numaCpuset m n ∧ m.usable c = true ∧ c < 1024 := by
    intro n hn
    obtain ⟨c, hc⟩ := List.exists_mem_of_ne_nil _ (hcpu n hn)
    unfold numaCpus at hc
    simp only [List.mem_filter, List.mem_range, Bool.and_eq_true, decide_eq_true_eq] at hc
    exact ⟨c, (mem_cpuset m n c).2 ⟨hc.1, hc.2.1.1, hc.2.1.2⟩, hc.2.2, hc.2.1.2⟩
  have htext : ∀ t, ∃ x, cpuSetToString (numaCpuset m ((numaNodes m).getD (t % (numaNodes m).length) 0)) = some x ∧
      ∀ c, CpuListHas x c ↔ c < 1024 ∧ c ∈ numaCpuset m ((numaNodes m).getD (t % (numaNodes m).length) 0) := by
    intro t
    obtain ⟨c, h1, -, h2⟩ := huse _ (hmem t)
    obtain ⟨x, h3, -, h4⟩ := C116_text _ ⟨c, h1, h2⟩
    exact ⟨x, h3, h4⟩
  refine ⟨fun t => (htext t).choose, fun t c => ?_, ?_⟩
  · rw [(htext t).choose_spec.2 c, mem_cpuset]
    constructor
    · rintro ⟨a, b, d, -⟩; exact ⟨a, b, d⟩
    · rintro ⟨a, b, d⟩; exact ⟨a, b, d, a⟩
  · have hnn : numaCpusets m ≠ [] := by
      rw [numaSets_eq m ha]
      simpa using hne
    unfold spreadThreadsT spreadThreads
    rw [if_neg (by decide)]
    simp only
    rw [if_neg hnn, if_neg hnn, spreadFromT_lines m _ (fun t => (htext t).choose)
      (fun t => by rw [hget]; exact (htext t).choose_spec.1) ?_ T 0 aff [], List.nil_append, ← List.range_eq_range']
    · simp [Nat.toString_eq_repr, Nat.toList_repr]
    · intro t
      rw [hget]
      obtain ⟨c, h1, h2, -⟩ := huse _ (hmem t)
      unfold setAffinity
      rw [if_neg (List.ne_nil_of_mem (List.mem_filter.2 ⟨h1, h2⟩))]
      intro h; cases h

/-- C116: the first call writes in addition, before these lines, one line for each node with usable memory, in order, with
the CPUs of the node. -/
theorem C116_first_lines (m : NumaMachine) (T : Nat) (aff : Nat → List Nat) (ha : m.available = true)
    (hcpu : ∀ n ∈ numaNodes m, ∃ c, c < m.nprocs ∧ c < 1024 ∧ m.nodeCpu n c = true) :
    ∃ text : Nat → List Char,
      (∀ k (h : k < (numaNodes m).length) c, CpuListHas (text k) c ↔ c < 1024 ∧ c < m.nprocs ∧ m.nodeCpu (numaNodes m)[k] c = true) ∧
      ∃ later, spreadThreadsT m false T aff = some (spreadThreads m T aff, later) ∧
        spreadThreadsT m true T aff = some (spreadThreads m T aff, ((List.range (numaNodes m).length).flatMap fun k =>
          "NUMA CPU set ".toList ++ (toString k).toList ++ " contains ".toList ++ text k ++ "\n".toList) ++ later) := by
  have hall : ∀ n ∈ numaNodes m, ∃ c ∈ numaCpuset m n, c < 1024 := by
    intro n hn
    obtain ⟨c, h1, h2, h3⟩ := hcpu n hn
    exact ⟨c, (mem_cpuset m n c).2 ⟨h1, h3, h2⟩, h2⟩
  have htext : ∀ k (h : k < (numaNodes m).length), ∃ x, cpuSetToString (numaCpuset m (numaNodes m)[k]) = some x ∧
      ∀ c, CpuListHas x c ↔ c < 1024 ∧ c ∈ numaCpuset m (numaNodes m)[k] := by
    intro k h
    obtain ⟨x, h1, -, h2⟩ := C116_text _ (hall _ (List.getElem_mem h))
    exact ⟨x, h1, h2⟩
  refine ⟨fun k => if h : k < (numaNodes m).length then (htext k h).choose else [], fun k h c => ?_, ?_⟩
  · simp only [dif_pos h]
    rw [(htext k h).choose_spec.2 c, mem_cpuset]
    constructor
    · rintro ⟨a, b, d, -⟩; exact ⟨a, b, d⟩
    · rintro ⟨a, b, d⟩; exact ⟨a, b, d, a⟩
  · obtain ⟨later, hl⟩ := C116_trace_same_partial m false T aff hcpu
    refine ⟨later, hl, ?_⟩
    unfold spreadThreadsT at hl ⊢
    rw [if_neg (by decide)] at hl
    rw [if_pos rfl, traceSets_lines (fun k => if h : k < (numaNodes m).length then (htext k h).choose else [])]
    · simp only at hl ⊢
      have hlen : (numaCpusets m).length = (numaNodes m).length := by rw [numaSets_eq m ha, List.length_map]
      rw [hlen, ← List.range_eq_range']
      simp only [Nat.toString_eq_repr, Nat.toList_repr]
      generalize hL : (List.range (numaNodes m).length).flatMap (fun k =>
        "NUMA CPU set ".toList ++ Nat.toDigits 10 k ++ " contains ".toList ++
          (if h : k < (numaNodes m).length then (htext k h).choose else []) ++ ['\n']) = L
      have hL' : (List.range (numaNodes m).length).flatMap (fun k =>
        "NUMA CPU set ".toList ++ Nat.toDigits 10 k ++ " contains ".toList ++
          (if h : k < (numaNodes m).length then (htext k h).choose else []) ++ "\n".toList) = L := hL
      rw [hL']
      by_cases he : numaCpusets m = []
      · rw [if_pos he] at hl ⊢
        have := Option.some.inj hl
        rw [Prod.mk.injEq] at this
        rw [← this.1, ← this.2, List.append_nil]
      · rw [if_neg he] at hl ⊢
        have hp := spreadFromT_prefix m (numaCpusets m) L T 0 aff []
        rw [List.append_nil, hl] at hp
        exact hp
    · intro k hk
      have hk' : k < (numaNodes m).length := by rw [numaSets_eq m ha, List.length_map] at hk; exact hk
      rw [Nat.zero_add, dif_pos hk']
      have hg : (numaCpusets m)[k] = numaCpuset m (numaNodes m)[k] := by
        simp only [numaSets_eq m ha, List.getElem_map]
      rw [hg]
      exact (htext k hk').choose_spec.1

example : (spreadThreadsT numaTwo true 1 fun _ => []).map (·.2) = some
    "NUMA CPU set 0 contains 0-1\nNUMA CPU set 1 contains 2-3\nAssigning thread 0 to CPU set 0-1\n".toList := by
  decide +kernel

example : (spreadThreadsT numaTwo false 3 fun _ => []).map (·.2) = some
    "Assigning thread 0 to CPU set 0-1\nAssigning thread 1 to CPU set 2-3\nAssigning thread 2 to CPU set 0-1\n".toList := by
  decide +kernel

end Props
end Lib842
