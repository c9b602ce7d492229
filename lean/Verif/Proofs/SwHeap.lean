import Verif.Model.SwHeap
import Mathlib.Data.List.Perm.Subperm
import Mathlib.Data.List.Nodup
/-!
# Memory management of the serial compressor: helper lemmas
-/

namespace Lib842.SwHeap

/-- Blocks of one entry -/
def _root_.Lib842.HNode.cells {w : Nat} (h : HNode w) : List Nat := h.cell :: h.els.map Prod.fst

/-- Blocks of a table -/
def cells {w : Nat} (t : List (HNode w)) : List Nat := t.flatMap HNode.cells

/-- The table `t` represents the map `ht`; every slot `j` in it belongs to the value `node j`. -/
structure TInv {w : Nat} (N : Nat) (t : List (HNode w)) (ht : BitVec w → List Nat) (node : Nat → BitVec w) : Prop where
  keys : (t.map HNode.data).Nodup
  rep : ∀ h ∈ t, h.els.map Prod.snd = ht h.data
  ne : ∀ h ∈ t, h.els ≠ []
  out : ∀ k, (∀ h ∈ t, h.data ≠ k) → ht k = []
  idx : ∀ k j, j ∈ ht k → j < N ∧ node j = k
  nodup : ∀ k, (ht k).Nodup

/-- The allocated blocks are those of the table and the others, `R`. -/
structure HInv (hp : Heap) (C : List Nat) : Prop where
  perm : hp.live.Perm C
  nodup : hp.live.Nodup
  fresh : ∀ c ∈ hp.live, c < hp.next

theorem HInv.congr {hp : Heap} {C D : List Nat} (h : HInv hp C) (hp' : C.Perm D) : HInv hp D :=
  ⟨h.perm.trans hp', h.nodup, h.fresh⟩

theorem HInv.free {hp : Heap} {c : Nat} {C : List Nat} (h : HInv hp (c :: C)) :
    ∃ hp', hp.free c = some hp' ∧ HInv hp' C ∧ hp'.limit = hp.limit := by
  have hm : c ∈ hp.live := h.perm.mem_iff.2 List.mem_cons_self
  refine ⟨{ hp with live := hp.live.erase c }, by rw [Heap.free, if_pos hm], ⟨?_, h.nodup.erase c, ?_⟩, rfl⟩
  · have := h.perm.erase c
    rwa [List.erase_cons_head] at this
  · exact fun d hd => h.fresh d (List.mem_of_mem_erase hd)

theorem HInv.malloc {hp : Heap} {C : List Nat} (h : HInv hp C) (hl : C.length < hp.limit) :
    ∃ hp', hp.malloc = some (hp.next, hp') ∧ HInv hp' (hp.next :: C) ∧ hp'.limit = hp.limit := by
  refine ⟨{ hp with next := hp.next + 1, live := hp.next :: hp.live }, ?_, ⟨h.perm.cons _, ?_, ?_⟩, rfl⟩
  · rw [Heap.malloc, if_pos (by rw [h.perm.length_eq]; exact hl)]
  · rw [List.nodup_cons]
    exact ⟨fun hm => by have := h.fresh _ hm; omega, h.nodup⟩
  · intro c hc
    rcases List.mem_cons.1 hc with rfl | hc
    · exact Nat.lt_succ_self _
    · exact Nat.lt_succ_of_lt (h.fresh c hc)

theorem HInv.nodupC {hp : Heap} {C : List Nat} (h : HInv hp C) : C.Nodup := h.perm.nodup_iff.1 h.nodup

theorem mem_cells {w : Nat} {t : List (HNode w)} {h : HNode w} (hm : h ∈ t) {c : Nat} (hc : c ∈ h.cells) : c ∈ cells t :=
  List.mem_flatMap.2 ⟨h, hm, hc⟩

theorem okTab_of {w : Nat} {hp : Heap} {t : List (HNode w)} (h : ∀ c ∈ cells t, c ∈ hp.live) : okTab hp t = true := by
  unfold okTab
  rw [List.all_eq_true]
  intro n hn
  rw [Bool.and_eq_true, decide_eq_true_iff, List.all_eq_true]
  refine ⟨h _ (mem_cells hn List.mem_cons_self), fun e he => ?_⟩
  rw [decide_eq_true_iff]
  exact h _ (mem_cells hn (List.mem_cons_of_mem _ (List.mem_map_of_mem he)))

theorem HInv.okTab {w : Nat} {hp : Heap} {t : List (HNode w)} {R : List Nat} (h : HInv hp (cells t ++ R)) :
    okTab hp t = true :=
  okTab_of fun _ hc => h.perm.mem_iff.2 (List.mem_append_left _ hc)

theorem cells_append {w : Nat} (a b : List (HNode w)) : cells (a ++ b) = cells a ++ cells b := List.flatMap_append

theorem cells_cons {w : Nat} (h : HNode w) (b : List (HNode w)) : cells (h :: b) = h.cells ++ cells b := rfl

theorem setEls_none {w : Nat} {t : List (HNode w)} {c : Nat} {els : List (Nat × Nat)} (h : ∀ n ∈ t, n.cell ≠ c) :
    setEls t c els = t := by
  unfold setEls
  conv_rhs => rw [← List.map_id t]
  exact List.map_congr_left fun n hn => by rw [if_neg (h n hn)]; rfl

theorem setEls_mid {w : Nat} {a b : List (HNode w)} {h : HNode w} {els : List (Nat × Nat)}
    (hn : (cells (a ++ h :: b)).Nodup) : setEls (a ++ h :: b) h.cell els = a ++ { h with els := els } :: b := by
  rw [cells_append, cells_cons] at hn
  have hc : h.cell ∈ h.cells := List.mem_cons_self
  have h1 : ∀ n ∈ a, n.cell ≠ h.cell := by
    intro n hna he
    exact (List.disjoint_of_nodup_append hn) (mem_cells hna (List.mem_cons_self (a := n.cell)))
      (List.mem_append_left _ (he ▸ hc))
  have h2 : ∀ n ∈ b, n.cell ≠ h.cell := by
    intro n hnb he
    have hn2 := (List.nodup_append.1 hn).2.1
    exact (List.disjoint_of_nodup_append hn2) hc (he ▸ mem_cells hnb (List.mem_cons_self (a := n.cell)))
  have e1 := setEls_none (els := els) h1
  have e2 := setEls_none (els := els) h2
  unfold setEls at e1 e2 ⊢
  rw [List.map_append, List.map_cons, e1, e2, if_pos rfl]

theorem eraseP_mid {w : Nat} {a b : List (HNode w)} {h : HNode w}
    (hn : (cells (a ++ h :: b)).Nodup) : (a ++ h :: b).eraseP (fun h' => h'.cell = h.cell) = a ++ b := by
  rw [cells_append, cells_cons] at hn
  have h1 : ∀ n ∈ a, n.cell ≠ h.cell := by
    intro n hna he
    exact (List.disjoint_of_nodup_append hn) (mem_cells hna (List.mem_cons_self (a := n.cell)))
      (List.mem_append_left _ (he ▸ List.mem_cons_self))
  rw [List.eraseP_append_right _ (fun n hna => by simpa using h1 n hna), List.eraseP_cons_of_pos (by simp)]

theorem eraseP_els {a b : List (Nat × Nat)} {e : Nat × Nat} (hn : ((a ++ e :: b).map Prod.fst).Nodup) :
    (a ++ e :: b).eraseP (fun e' => e'.1 = e.1) = a ++ b := by
  rw [List.map_append] at hn
  have h1 : ∀ n ∈ a, n.1 ≠ e.1 := by
    intro n hna he
    exact (List.disjoint_of_nodup_append hn) (List.mem_map_of_mem hna) (he ▸ List.mem_cons_self)
  rw [List.eraseP_append_right _ (fun n hna => by simpa using h1 n hna), List.eraseP_cons_of_pos (by simp)]

/-! ## Number of blocks -/

theorem TInv.slots_nodup {w N : Nat} {t : List (HNode w)} {ht : BitVec w → List Nat} {node : Nat → BitVec w}
    (h : TInv N t ht node) : (t.flatMap fun n => n.els.map Prod.snd).Nodup := by
  rw [List.nodup_flatMap]
  refine ⟨fun n hn => by rw [h.rep n hn]; exact h.nodup _, ?_⟩
  have hk := h.keys
  rw [List.Nodup, List.pairwise_map] at hk
  refine hk.imp_of_mem ?_
  intro a b ha hb hab j hja hjb
  simp only at hja hjb
  rw [h.rep a ha] at hja
  rw [h.rep b hb] at hjb
  exact hab ((h.idx _ _ hja).2.symm.trans (h.idx _ _ hjb).2)

theorem cells_le {w : Nat} (t : List (HNode w)) (h : ∀ n ∈ t, n.els ≠ []) :
    (cells t).length ≤ 2 * (t.flatMap fun n => n.els.map Prod.snd).length := by
  induction t with
  | nil => exact Nat.zero_le _
  | cons n t ih =>
    have := ih fun m hm => h m (List.mem_cons_of_mem _ hm)
    have hne := List.length_pos_iff.2 (h n List.mem_cons_self)
    rw [cells_cons, List.flatMap_cons, List.length_append, List.length_append, HNode.cells, List.length_cons,
      List.length_map, List.length_map]
    omega

theorem TInv.count {w N : Nat} {t : List (HNode w)} {ht : BitVec w → List Nat} {node : Nat → BitVec w}
    (h : TInv N t ht node) : (cells t).length ≤ 2 * N := by
  have h1 := cells_le t h.ne
  have h2 : (t.flatMap fun n => n.els.map Prod.snd) ⊆ List.range N := by
    intro j hj
    obtain ⟨n, hn, hj⟩ := List.mem_flatMap.1 hj
    rw [h.rep n hn] at hj
    exact List.mem_range.2 (h.idx _ _ hj).1
  have h3 := (List.subperm_of_subset h.slots_nodup h2).length_le
  rw [List.length_range] at h3
  omega

theorem TInv.count_free {w N : Nat} {t : List (HNode w)} {ht : BitVec w → List Nat} {node : Nat → BitVec w}
    (h : TInv N t ht node) {i : Nat} (hi : i < N) (hf : ∀ k, i ∉ ht k) : (cells t).length + 2 ≤ 2 * N := by
  have h1 := cells_le t h.ne
  have h2 : (t.flatMap fun n => n.els.map Prod.snd) ⊆ (List.range N).erase i := by
    intro j hj
    obtain ⟨n, hn, hj⟩ := List.mem_flatMap.1 hj
    rw [h.rep n hn] at hj
    have hne : j ≠ i := fun hh => hf _ (hh ▸ hj)
    exact (List.mem_erase_of_ne hne).2 (List.mem_range.2 (h.idx _ _ hj).1)
  have h3 := (List.subperm_of_subset h.slots_nodup h2).length_le
  rw [List.length_erase_of_mem (List.mem_range.2 hi), List.length_range] at h3
  omega

/-! ## Operations on one table -/

theorem erase_mid {a b : List Nat} {i : Nat} (hn : (a ++ i :: b).Nodup) : (a ++ i :: b).erase i = a ++ b := by
  rw [List.erase_append_right _ (fun hm => (List.disjoint_of_nodup_append hn) hm List.mem_cons_self), List.erase_cons_head]

theorem find_key {w : Nat} {t : List (HNode w)} {k : BitVec w} {h : HNode w} (hf : t.find? (fun h => h.data = k) = some h) :
    h.data = k ∧ ∃ a b, t = a ++ h :: b := by
  obtain ⟨h1, a, b, h2, -⟩ := List.find?_eq_some_iff_append.1 hf
  exact ⟨by simpa using h1, a, b, h2⟩

theorem dropIdx_ok {w N : Nat} {t : List (HNode w)} {ht : BitVec w → List Nat} {node : Nat → BitVec w} {hp : Heap}
    {R : List Nat} (h : TInv N t ht node) (hh : HInv hp (cells t ++ R)) (i : Nat) :
    ∃ hp' t', dropIdx hp t (node i) i = some (hp', t') ∧
      TInv N t' (upd ht (node i) ((ht (node i)).erase i)) node ∧ HInv hp' (cells t' ++ R) ∧ hp'.limit = hp.limit := by
  unfold dropIdx
  rw [if_pos hh.okTab]
  rcases hf : t.find? (fun h => decide (h.data = node i)) with _ | n
  · rw [hf]
    refine ⟨hp, t, rfl, ?_, hh, rfl⟩
    have hk : ∀ m ∈ t, m.data ≠ node i := by
      intro m hm
      have := List.find?_eq_none.1 hf m hm
      simpa using this
    have : upd ht (node i) ((ht (node i)).erase i) = ht := by
      funext k
      unfold upd
      split
      · rename_i hk'; rw [hk', h.out _ hk]; rfl
      · rfl
    rw [this]; exact h
  · obtain ⟨hk, a, b, rfl⟩ := find_key hf
    have hmem : n ∈ a ++ n :: b := by simp
    have hrep := h.rep n hmem
    have hnd := (List.nodup_append.1 hh.nodupC).1
    simp only
    rw [hf]
    simp only
    rcases he : n.els.find? (fun e => decide (e.2 = i)) with _ | el
    · rw [he]
      refine ⟨hp, _, rfl, ?_, hh, rfl⟩
      have hni : i ∉ ht (node i) := by
        rw [← hk, ← hrep]
        intro hm
        obtain ⟨e, he1, he2⟩ := List.mem_map.1 hm
        have := List.find?_eq_none.1 he e he1
        simp [he2] at this
      have : upd ht (node i) ((ht (node i)).erase i) = ht := by
        funext k
        unfold upd
        split
        · rename_i hk'; rw [hk', List.erase_of_not_mem hni]
        · rfl
      rw [this]; exact h
    · obtain ⟨he1, c, d, he2, -⟩ := List.find?_eq_some_iff_append.1 he
      have hei : el.2 = i := by simpa using he1
      have hfst : (n.els.map Prod.fst).Nodup := by
        rw [cells_append, cells_cons] at hnd
        exact (List.nodup_cons.1 (List.nodup_append.1 (List.nodup_append.1 hnd).2.1).1).2
      rw [he]
      simp only
      have hers : n.els.eraseP (fun e' => decide (e'.1 = el.1)) = c ++ d := by
        rw [he2] at hfst ⊢
        exact eraseP_els hfst
      rw [hers]
      -- the list after the removal
      have hht : (ht (node i)).erase i = (c ++ d).map Prod.snd := by
        rw [← hk, ← hrep, he2, List.map_append, List.map_cons, hei]
        rw [he2, List.map_append, List.map_cons, hei, hk] at hrep
        have := h.nodup (node i)
        rw [← hrep] at this
        rw [erase_mid this, List.map_append]
      have p1 : (cells (a ++ n :: b) ++ R).Perm (el.1 :: (n.cell :: (c ++ d).map Prod.fst ++ (cells a ++ cells b ++ R))) := by
        rw [cells_append, cells_cons, HNode.cells, he2, List.map_append, List.map_cons, List.map_append]
        rw [List.perm_iff_count]
        intro q
        simp only [List.count_append, List.count_cons]
        omega
      obtain ⟨hp1, f1, f2, f3⟩ := (hh.congr p1).free
      rw [f1]
      simp only
      have hkeys := h.keys
      rw [List.map_append, List.map_cons] at hkeys
      by_cases hz : (c ++ d).length = 0
      · rw [if_pos hz]
        have hcd : c ++ d = [] := List.length_eq_zero_iff.1 hz
        rw [hcd, List.map_nil] at f2
        obtain ⟨hp2, g1, g2, g3⟩ := HInv.free f2
        rw [g1]
        simp only
        refine ⟨hp2, _, rfl, ?_, ?_, by rw [g3, f3]⟩
        · rw [eraseP_mid hnd, hht, hcd]
          have hother : ∀ m ∈ a ++ b, m.data ≠ n.data := by
            intro m hm hd
            have hn2 := List.nodup_middle.1 hkeys
            rw [← List.map_append] at hn2
            exact (List.nodup_cons.1 hn2).1 (hd ▸ List.mem_map_of_mem hm)
          refine ⟨?_, ?_, ?_, ?_, ?_, ?_⟩
          · rw [List.map_append]
            exact (List.nodup_cons.1 (List.nodup_middle.1 hkeys)).2
          · intro m hm
            rw [upd, if_neg (by rw [← hk]; exact hother m hm)]
            exact h.rep m (by rcases List.mem_append.1 hm with hm | hm <;> simp [hm])
          · exact fun m hm => h.ne m (by rcases List.mem_append.1 hm with hm | hm <;> simp [hm])
          · intro k hkk
            unfold upd
            split
            · rfl
            · rename_i hne
              refine h.out k fun m hm => ?_
              rcases List.mem_append.1 hm with hm | hm
              · exact hkk m (List.mem_append_left _ hm)
              · rcases List.mem_cons.1 hm with rfl | hm
                · exact fun hh => hne (hh ▸ hk)
                · exact hkk m (List.mem_append_right _ hm)
          · intro k j hj
            unfold upd at hj
            split at hj
            · cases hj
            · exact h.idx k j hj
          · intro k
            unfold upd
            split
            · exact List.nodup_nil
            · exact h.nodup k
        · rw [eraseP_mid hnd, cells_append]
          exact g2
      · rw [if_neg hz]
        refine ⟨hp1, _, rfl, ?_, ?_, f3⟩
        · rw [setEls_mid hnd, hht]
          have hothera : ∀ m ∈ a ++ b, m.data ≠ n.data := by
            intro m hm hd
            have hn2 := List.nodup_middle.1 hkeys
            rw [← List.map_append] at hn2
            exact (List.nodup_cons.1 hn2).1 (hd ▸ List.mem_map_of_mem hm)
          have hcases : ∀ m ∈ a ++ { n with els := c ++ d } :: b, m ∈ a ++ b ∨ m = { n with els := c ++ d } := by
            intro m hm
            rcases List.mem_append.1 hm with hm | hm
            · exact .inl (List.mem_append_left _ hm)
            · rcases List.mem_cons.1 hm with hm | hm
              · exact .inr hm
              · exact .inl (List.mem_append_right _ hm)
          refine ⟨?_, ?_, ?_, ?_, ?_, ?_⟩
          · rw [List.map_append, List.map_cons]
            exact hkeys
          · intro m hm
            rcases hcases m hm with hm | rfl
            · rw [upd, if_neg (by rw [← hk]; exact hothera m hm)]
              exact h.rep m (by rcases List.mem_append.1 hm with hm | hm <;> simp [hm])
            · rw [upd, if_pos hk]
          · intro m hm
            rcases hcases m hm with hm | rfl
            · exact h.ne m (by rcases List.mem_append.1 hm with hm | hm <;> simp [hm])
            · exact fun hh => hz (List.length_eq_zero_iff.2 hh)
          · intro k hkk
            have hne : k ≠ node i := by
              intro hke
              exact hkk { n with els := c ++ d } (by simp) (by rw [hke]; exact hk)
            rw [upd, if_neg hne]
            refine h.out k fun m hm => ?_
            rcases List.mem_append.1 hm with hm | hm
            · exact hkk m (List.mem_append_left _ hm)
            · rcases List.mem_cons.1 hm with rfl | hm
              · exact fun hh => hne (hh ▸ hk)
              · exact hkk m (List.mem_append_right _ (List.mem_cons_of_mem _ hm))
          · intro k j hj
            unfold upd at hj
            split at hj
            · rename_i hke
              rw [← hht] at hj
              rw [hke]
              exact h.idx _ j (List.mem_of_mem_erase hj)
            · exact h.idx k j hj
          · intro k
            unfold upd
            split
            · rw [← hht]; exact (h.nodup _).erase _
            · exact h.nodup k
        · rw [setEls_mid hnd]
          refine f2.congr ?_
          rw [cells_append, cells_cons, HNode.cells, List.perm_iff_count]
          intro q
          simp only [List.count_append, List.count_cons]
          omega

theorem getNode_ok {w N : Nat} {t : List (HNode w)} {ht : BitVec w → List Nat} {node : Nat → BitVec w} {hp : Heap}
    {R : List Nat} (h : TInv N t ht node) (hh : HInv hp (cells t ++ R)) (hl : (cells t ++ R).length < hp.limit) (new : BitVec w) :
    ∃ n hp' t' a b, getNode hp t new = some (n, hp', t') ∧ t' = a ++ n :: b ∧ n.data = new ∧
      n.els.map Prod.snd = ht new ∧ HInv hp' (cells t' ++ R) ∧ hp'.limit = hp.limit ∧
      (cells t').length ≤ (cells t).length + 1 ∧ (t'.map HNode.data).Nodup ∧
      (∀ m ∈ a ++ b, m ∈ t ∧ m.data ≠ new) ∧ (∀ m ∈ t, m.data ≠ new → m ∈ a ++ b) := by
  unfold getNode
  rcases hf : t.find? (fun h => decide (h.data = new)) with _ | n
  · obtain ⟨hp', f1, f2, f3⟩ := hh.malloc hl
    rw [hf]
    simp only [f1]
    have hk : ∀ m ∈ t, m.data ≠ new := by
      intro m hm
      have := List.find?_eq_none.1 hf m hm
      simpa using this
    refine ⟨⟨hp.next, new, []⟩, hp', _, t, [], rfl, rfl, rfl, ?_, ?_, f3, ?_, ?_, ?_, ?_⟩
    · rw [h.out new hk]; rfl
    · refine f2.congr ?_
      rw [cells_append, cells_cons, HNode.cells, List.perm_iff_count]
      intro q
      simp only [List.count_append, List.count_cons, List.map_nil, List.count_nil, cells, List.flatMap_nil]
      omega
    · rw [cells_append, cells_cons, HNode.cells]
      simp [cells]
    · rw [List.map_append, List.map_cons, List.nodup_middle, List.nodup_cons]
      refine ⟨?_, by simpa using h.keys⟩
      simp only [List.map_nil, List.append_nil]
      intro hm
      obtain ⟨m, hm, hd⟩ := List.mem_map.1 hm
      exact hk m hm hd
    · intro m hm
      rw [List.append_nil] at hm
      exact ⟨hm, hk m hm⟩
    · intro m hm _
      rw [List.append_nil]
      exact hm
  · obtain ⟨hk, a, b, rfl⟩ := find_key hf
    rw [hf]
    refine ⟨n, hp, _, a, b, rfl, rfl, hk, ?_, hh, rfl, by omega, h.keys, ?_, ?_⟩
    · rw [h.rep n (by simp), hk]
    · intro m hm
      refine ⟨by rcases List.mem_append.1 hm with hm | hm <;> simp [hm], fun hd => ?_⟩
      have hkeys := h.keys
      rw [List.map_append, List.map_cons] at hkeys
      have hn2 := List.nodup_middle.1 hkeys
      rw [← List.map_append] at hn2
      exact (List.nodup_cons.1 hn2).1 (hk ▸ hd ▸ List.mem_map_of_mem hm)
    · intro m hm hd
      rcases List.mem_append.1 hm with hm | hm
      · exact List.mem_append_left _ hm
      · rcases List.mem_cons.1 hm with rfl | hm
        · exact absurd hk hd
        · exact List.mem_append_right _ hm

theorem addIdx_ok {w N : Nat} {t : List (HNode w)} {ht : BitVec w → List Nat} {node : Nat → BitVec w} {hp : Heap}
    {R : List Nat} (h : TInv N t ht node) (hh : HInv hp (cells t ++ R)) (new : BitVec w) {i : Nat} (hi : i < N)
    (hf : ∀ k, i ∉ ht k) (hl : 2 * N + R.length ≤ hp.limit) :
    ∃ hp' t', addIdx hp t new i = some (hp', t') ∧
      TInv N t' (upd ht new (ht new ++ [i])) (upd node i new) ∧ HInv hp' (cells t' ++ R) ∧ hp'.limit = hp.limit := by
  have hc := h.count_free hi hf
  obtain ⟨n, hp1, t1, a, b, g1, rfl, g3, g4, g5, g6, g7, g8, g9, g10⟩ :=
    getNode_ok h hh (by rw [List.length_append]; omega) new
  unfold addIdx
  rw [if_pos hh.okTab, g1]
  simp only
  obtain ⟨hp2, f1, f2, f3⟩ := g5.malloc (by rw [List.length_append]; omega)
  rw [f1]
  simp only
  have hnd := (List.nodup_append.1 g5.nodupC).1
  refine ⟨hp2, _, rfl, ?_, ?_, by rw [f3, g6]⟩
  · rw [setEls_mid hnd]
    have hcases : ∀ m ∈ a ++ { n with els := n.els ++ [(hp1.next, i)] } :: b,
        m ∈ a ++ b ∨ m = { n with els := n.els ++ [(hp1.next, i)] } := by
      intro m hm
      rcases List.mem_append.1 hm with hm | hm
      · exact .inl (List.mem_append_left _ hm)
      · rcases List.mem_cons.1 hm with hm | hm
        · exact .inr hm
        · exact .inl (List.mem_append_right _ hm)
    refine ⟨?_, ?_, ?_, ?_, ?_, ?_⟩
    · rw [List.map_append, List.map_cons] at g8 ⊢
      exact g8
    · intro m hm
      rcases hcases m hm with hm | rfl
      · obtain ⟨m1, m2⟩ := g9 m hm
        rw [upd, if_neg m2, h.rep m m1]
      · rw [upd, if_pos g3, List.map_append, g4]; rfl
    · intro m hm
      rcases hcases m hm with hm | rfl
      · exact h.ne m (g9 m hm).1
      · simp
    · intro k hkk
      have hne : k ≠ new := by
        intro hke
        exact hkk { n with els := n.els ++ [(hp1.next, i)] } (by simp) (by rw [hke]; exact g3)
      rw [upd, if_neg hne]
      refine h.out k fun m hm hmk => ?_
      have := g10 m hm (by rw [hmk]; exact hne)
      refine hkk m ?_ hmk
      rcases List.mem_append.1 this with this | this
      · exact List.mem_append_left _ this
      · exact List.mem_append_right _ (List.mem_cons_of_mem _ this)
    · intro k j hj
      unfold upd at hj
      split at hj
      · rename_i hk
        rcases List.mem_append.1 hj with hj | hj
        · obtain ⟨j1, j2⟩ := h.idx _ _ hj
          refine ⟨j1, ?_⟩
          rw [upd, if_neg (fun hji => hf _ (hji ▸ hj)), j2, hk]
        · rw [List.mem_singleton.1 hj]
          exact ⟨hi, by rw [upd, if_pos rfl, hk]⟩
      · obtain ⟨j1, j2⟩ := h.idx _ _ hj
        refine ⟨j1, ?_⟩
        rw [upd, if_neg (fun hji => hf _ (hji ▸ hj)), j2]
    · intro k
      unfold upd
      split
      · rw [List.nodup_append]
        refine ⟨h.nodup _, by simp, fun x hx y hy => ?_⟩
        rw [List.mem_singleton.1 hy]
        exact fun hxy => hf _ (hxy ▸ hx)
      · exact h.nodup k
  · rw [setEls_mid hnd]
    refine f2.congr ?_
    rw [cells_append, cells_cons, HNode.cells, cells_append, cells_cons, HNode.cells, List.map_append, List.perm_iff_count]
    intro q
    simp only [List.count_append, List.count_cons, List.map_cons, List.map_nil, List.count_nil]
    omega

/-- `replace_hash` on one table -/
theorem replace_ok {w N : Nat} {t : List (HNode w)} {ht : BitVec w → List Nat} {node : Nat → BitVec w} {hp : Heap}
    {R : List Nat} (h : TInv N t ht node) (hh : HInv hp (cells t ++ R)) (new : BitVec w) {i : Nat} (hi : i < N)
    (hl : 2 * N + R.length ≤ hp.limit) :
    ∃ hp1 t1 hp' t', dropIdx hp t (node i) i = some (hp1, t1) ∧ addIdx hp1 t1 new i = some (hp', t') ∧
      TInv N t' (upd (upd ht (node i) ((ht (node i)).erase i)) new
        (upd ht (node i) ((ht (node i)).erase i) new ++ [i])) (upd node i new) ∧
      HInv hp' (cells t' ++ R) ∧ hp'.limit = hp.limit := by
  obtain ⟨hp1, t1, a1, a2, a3, a4⟩ := dropIdx_ok h hh i
  have hf : ∀ k, i ∉ upd ht (node i) ((ht (node i)).erase i) k := by
    intro k hm
    unfold upd at hm
    split at hm
    · exact (h.nodup _).not_mem_erase hm
    · rename_i hne
      exact hne (h.idx _ _ hm).2.symm
  obtain ⟨hp', t', b1, b2, b3, b4⟩ := addIdx_ok a2 a3 new hi hf (by omega)
  exact ⟨hp1, t1, hp', t', a1, b1, b2, b3, by omega⟩

theorem look_ok {w N : Nat} {t : List (HNode w)} {ht : BitVec w → List Nat} {node : Nat → BitVec w} {hp : Heap}
    {R : List Nat} (h : TInv N t ht node) (hh : HInv hp (cells t ++ R)) (k : BitVec w) :
    lookTab hp t k = some (ht k).head? := by
  unfold lookTab
  rw [if_pos hh.okTab]
  rcases hf : t.find? (fun h => decide (h.data = k)) with _ | n
  · have hk : ∀ m ∈ t, m.data ≠ k := by
      intro m hm
      have := List.find?_eq_none.1 hf m hm
      simpa using this
    rw [hf, h.out k hk]; rfl
  · obtain ⟨hk, a, b, rfl⟩ := find_key hf
    have := h.rep n (by simp)
    rw [hk] at this
    rw [← this, hf]
    simp only
    split <;> rename_i he <;> rw [he] <;> rfl

theorem freeEls_ok {es : List (Nat × Nat)} {hp : Heap} {R : List Nat} (hh : HInv hp (es.map Prod.fst ++ R)) :
    ∃ hp', freeEls es hp = some hp' ∧ HInv hp' R := by
  induction es generalizing hp with
  | nil => exact ⟨hp, rfl, hh⟩
  | cons e es ih =>
    obtain ⟨hp1, f1, f2, -⟩ := HInv.free (c := e.1) (C := es.map Prod.fst ++ R) hh
    obtain ⟨hp2, g1, g2⟩ := ih f2
    exact ⟨hp2, by rw [freeEls, f1]; exact g1, g2⟩

theorem destroy_ok {w : Nat} {t : List (HNode w)} {hp : Heap} {R : List Nat} (hh : HInv hp (cells t ++ R)) :
    ∃ hp', destroyTab t hp = some hp' ∧ HInv hp' R := by
  induction t generalizing hp with
  | nil => exact ⟨hp, rfl, hh⟩
  | cons n t ih =>
    have p : (cells (n :: t) ++ R).Perm (n.els.map Prod.fst ++ (n.cell :: (cells t ++ R))) := by
      rw [cells_cons, HNode.cells, List.perm_iff_count]
      intro q
      simp only [List.count_append, List.count_cons]
      omega
    obtain ⟨hp1, f1, f2⟩ := freeEls_ok (hh.congr p)
    obtain ⟨hp2, g1, g2, -⟩ := f2.free
    obtain ⟨hp3, k1, k2⟩ := ih g2
    exact ⟨hp3, by rw [destroyTab, if_pos hh.okTab, f1]; simp only [g1]; exact k1, k2⟩

/-! ## The compressor with and without the heap -/

/-- The tables in memory represent the tables of the state; `L` are the blocks of others. -/
structure MInv (L : List Nat) (p : Comp) (m : Mem) : Prop where
  i8 : TInv 256 m.t8 p.ht8 p.node8
  i4 : TInv 512 m.t4 p.ht4 p.node4
  i2 : TInv 256 m.t2 p.ht2 p.node2
  heap : HInv m.heap (m.param :: (cells m.t8 ++ (cells m.t4 ++ (cells m.t2 ++ L))))
  lim : L.length + 2049 ≤ m.heap.limit

/-- Both computations have the same result from states related by the invariant. -/
def Sim (L : List Nat) {α : Type} (x : M Comp α) (xH : M (Comp × Mem) α) : Prop :=
  ∀ p m, MInv L p m →
    match x p with
    | .ok a p' => ∃ m', xH (p, m) = .ok a (p', m') ∧ MInv L p' m'
    | .err e p' => ∃ m', xH (p, m) = .err e (p', m') ∧ MInv L p' m'
    | .ub => xH (p, m) = .ub
    | .timeout => xH (p, m) = .timeout

/-- The tables are not changed. -/
def SameT (p p' : Comp) : Prop :=
  p'.ht8 = p.ht8 ∧ p'.ht4 = p.ht4 ∧ p'.ht2 = p.ht2 ∧ p'.node8 = p.node8 ∧ p'.node4 = p.node4 ∧ p'.node2 = p.node2

theorem SameT.rfl' {p : Comp} : SameT p p := ⟨rfl, rfl, rfl, rfl, rfl, rfl⟩

theorem SameT.trans {a b c : Comp} (h1 : SameT a b) (h2 : SameT b c) : SameT a c := by
  obtain ⟨a1, a2, a3, a4, a5, a6⟩ := h1
  obtain ⟨b1, b2, b3, b4, b5, b6⟩ := h2
  exact ⟨b1.trans a1, b2.trans a2, b3.trans a3, b4.trans a4, b5.trans a5, b6.trans a6⟩

def Keeps {α : Type} (x : M Comp α) : Prop :=
  ∀ p, match x p with
    | .ok _ p' => SameT p p'
    | .err _ p' => SameT p p'
    | .ub => True
    | .timeout => True

theorem Keeps.pure {α : Type} (a : α) : Keeps (Pure.pure a : M Comp α) := fun _ => SameT.rfl'
theorem Keeps.fail {α : Type} (e : Errno) : Keeps (M.fail e : M Comp α) := fun _ => SameT.rfl'
theorem Keeps.get : Keeps M.get := fun _ => SameT.rfl'
theorem Keeps.access {α : Type} (f : Comp → Option α) : Keeps (M.access f) := by
  intro p
  unfold M.access
  cases f p with
  | none => trivial
  | some a => exact SameT.rfl'
theorem Keeps.modify {f : Comp → Comp} (h : ∀ p, SameT p (f p)) : Keeps (M.modify f) := fun p => h p
theorem Keeps.liftW {α : Type} (x : M Writer α) : Keeps (liftW x) := by
  intro p
  unfold Lib842.liftW
  cases x p.w with
  | ok => exact ⟨rfl, rfl, rfl, rfl, rfl, rfl⟩
  | err => exact ⟨rfl, rfl, rfl, rfl, rfl, rfl⟩
  | ub => trivial
  | timeout => trivial
theorem Keeps.bind {α β : Type} {x : M Comp α} {f : α → M Comp β} (hx : Keeps x) (hf : ∀ a, Keeps (f a)) :
    Keeps (x >>= f) := by
  intro p
  have h := hx p
  show match M.bind x f p with
    | .ok _ p' => SameT p p'
    | .err _ p' => SameT p p'
    | .ub => True
    | .timeout => True
  unfold M.bind
  cases hr : x p with
  | ok a p1 =>
    rw [hr] at h
    simp only at h ⊢
    have h2 := hf a p1
    cases hr2 : f a p1 with
    | ok b p2 => rw [hr2] at h2; exact h.trans h2
    | err b p2 => rw [hr2] at h2; exact h.trans h2
    | ub => trivial
    | timeout => trivial
  | err e p1 => rw [hr] at h; exact h
  | ub => trivial
  | timeout => trivial
theorem Keeps.ignore {x : M Comp Unit} (hx : Keeps x) : Keeps (M.ignore x) := by
  intro p
  have h := hx p
  unfold M.ignore
  cases hr : x p with
  | ok a p1 => rw [hr] at h; exact h
  | err e p1 => rw [hr] at h; exact h
  | ub => trivial
  | timeout => trivial
theorem Keeps.ite {α : Type} {c : Prop} [Decidable c] {x y : M Comp α} (hx : Keeps x) (hy : Keeps y) :
    Keeps (if c then x else y) := by
  split
  · exact hx
  · exact hy

theorem keeps_addActions (e : Endian) (ts : List Nat) (b : Nat) : Keeps (addActions e ts b) := by
  induction ts generalizing b with
  | nil => exact .pure _
  | cons t ts ih =>
    unfold addActions
    dsimp only
    repeat' first
      | exact ih _
      | exact .pure _
      | exact .fail _
      | exact .get
      | exact .access _
      | exact .liftW _
      | refine Keeps.ite ?_ ?_
      | refine Keeps.bind ?_ fun _ => ?_

theorem keeps_addTemplate (e : Endian) (c : Nat) : Keeps (addTemplate e c) := by
  unfold addTemplate
  exact .ite (.fail _) (.bind (.access _) fun _ => .bind (.access _) fun _ => .bind (.liftW _) fun _ =>
    .bind (keeps_addActions _ _ _) fun _ => .ite (.fail _) (.pure _))

theorem keeps_addRepeat (e : Endian) (r : Nat) : Keeps (addRepeat e r) := by
  unfold addRepeat
  exact .ite (.fail _) (.bind (.liftW _) fun _ => .liftW _)

theorem keeps_addShortBytes (e : Endian) (n i : Nat) : Keeps (addShortBytes e n i) := by
  induction n generalizing i with
  | zero => exact .pure _
  | succ n ih => exact .bind (.access _) fun _ => .bind (.liftW _) fun _ => ih _

theorem keeps_addShortData (e : Endian) (b : Nat) : Keeps (addShortData e b) := by
  unfold addShortData
  exact .ite (.fail _) (.bind (.liftW _) fun _ => .bind (.liftW _) fun _ => keeps_addShortBytes _ _ _)

theorem keeps_getNextData (e : Endian) : Keeps (getNextData e) := by
  unfold getNextData
  exact .bind .get fun _ => .bind (.access _) fun _ => .bind (.access _) fun _ => .bind (.access _) fun _ =>
    .bind (.access _) fun _ => .bind (.access _) fun _ => .bind (.access _) fun _ => .bind (.access _) fun _ =>
    .modify fun _ => ⟨rfl, rfl, rfl, rfl, rfl, rfl⟩

/-! ### Simulation -/

variable {L : List Nat}

theorem MInv.same {p p' : Comp} {m : Mem} (h : MInv L p m) (hs : SameT p p') : MInv L p' m := by
  obtain ⟨h1, h2, h3, h4, h5, h6⟩ := hs
  exact ⟨by rw [h1, h4]; exact h.i8, by rw [h2, h5]; exact h.i4, by rw [h3, h6]; exact h.i2, h.heap, h.lim⟩

theorem Sim.lift {α : Type} {x : M Comp α} (hx : Keeps x) : Sim L x (onComp x) := by
  intro p m hi
  have h := hx p
  unfold onComp
  simp only
  cases hr : x p with
  | ok a p1 => rw [hr] at h; exact ⟨m, rfl, hi.same h⟩
  | err e p1 => rw [hr] at h; exact ⟨m, rfl, hi.same h⟩
  | ub => rfl
  | timeout => rfl

theorem Sim.pure {α : Type} (a : α) : Sim L (Pure.pure a : M Comp α) (Pure.pure a : M (Comp × Mem) α) :=
  fun _ m hi => ⟨m, rfl, hi⟩

theorem Sim.bind {α β : Type} {x : M Comp α} {xH : M (Comp × Mem) α} {f : α → M Comp β} {fH : α → M (Comp × Mem) β}
    (hx : Sim L x xH) (hf : ∀ a, Sim L (f a) (fH a)) : Sim L (x >>= f) (xH >>= fH) := by
  intro p m hi
  have h := hx p m hi
  show match M.bind x f p with
    | .ok a p' => ∃ m', M.bind xH fH (p, m) = .ok a (p', m') ∧ MInv L p' m'
    | .err e p' => ∃ m', M.bind xH fH (p, m) = .err e (p', m') ∧ MInv L p' m'
    | .ub => M.bind xH fH (p, m) = .ub
    | .timeout => M.bind xH fH (p, m) = .timeout
  unfold M.bind
  cases hr : x p with
  | ok a p1 =>
    rw [hr] at h
    obtain ⟨m1, h1, h2⟩ := h
    rw [h1]
    exact hf a p1 m1 h2
  | err e p1 =>
    rw [hr] at h
    obtain ⟨m1, h1, h2⟩ := h
    rw [h1]
    exact ⟨m1, rfl, h2⟩
  | ub => rw [hr] at h; simp only at h ⊢; rw [h]
  | timeout => rw [hr] at h; simp only at h ⊢; rw [h]

theorem Sim.ite {α : Type} {c : Prop} [Decidable c] {x y : M Comp α} {xH yH : M (Comp × Mem) α} (hx : Sim L x xH)
    (hy : Sim L y yH) : Sim L (if c then x else y) (if c then xH else yH) := by
  split
  · exact hx
  · exact hy

/-- The blocks, with one table in front -/
theorem MInv.h8 {p : Comp} {m : Mem} (h : MInv L p m) :
    HInv m.heap (cells m.t8 ++ (m.param :: (cells m.t4 ++ (cells m.t2 ++ L)))) := by
  refine h.heap.congr ?_
  rw [List.perm_iff_count]; intro q
  simp only [List.count_append, List.count_cons]; omega
theorem MInv.h4 {p : Comp} {m : Mem} (h : MInv L p m) :
    HInv m.heap (cells m.t4 ++ (m.param :: (cells m.t8 ++ (cells m.t2 ++ L)))) := by
  refine h.heap.congr ?_
  rw [List.perm_iff_count]; intro q
  simp only [List.count_append, List.count_cons]; omega
theorem MInv.h2 {p : Comp} {m : Mem} (h : MInv L p m) :
    HInv m.heap (cells m.t2 ++ (m.param :: (cells m.t8 ++ (cells m.t4 ++ L)))) := by
  refine h.heap.congr ?_
  rw [List.perm_iff_count]; intro q
  simp only [List.count_append, List.count_cons]; omega

theorem sim_findIndex8 (n : Nat) : Sim L (findIndex8 n) (findIndex8H n) := by
  unfold findIndex8 findIndex8H
  intro p m hi
  by_cases hn : n < 1
  · have hl := look_ok hi.i8 hi.h8 (p.data8 n)
    simp only [bind, M.bind, M.update, M.get, M.access, onComp, arrSet, arrGet, if_pos hn, Option.map_some, pure, hl]
    cases hh : p.ht8 (p.data8 n) with
    | nil => exact ⟨m, rfl, hi.same ⟨rfl, rfl, rfl, rfl, rfl, rfl⟩⟩
    | cons i is => exact ⟨m, rfl, hi.same ⟨rfl, rfl, rfl, rfl, rfl, rfl⟩⟩
  · simp only [bind, M.bind, M.update, onComp, arrSet, if_neg hn, Option.map_none]

theorem sim_findIndex4 (n : Nat) : Sim L (findIndex4 n) (findIndex4H n) := by
  unfold findIndex4 findIndex4H
  intro p m hi
  by_cases hn : n < 2
  · have hl := look_ok hi.i4 hi.h4 (p.data4 n)
    simp only [bind, M.bind, M.update, M.get, M.access, onComp, arrSet, arrGet, if_pos hn, Option.map_some, pure, hl]
    cases hh : p.ht4 (p.data4 n) with
    | nil => exact ⟨m, rfl, hi.same ⟨rfl, rfl, rfl, rfl, rfl, rfl⟩⟩
    | cons i is => exact ⟨m, rfl, hi.same ⟨rfl, rfl, rfl, rfl, rfl, rfl⟩⟩
  · simp only [bind, M.bind, M.update, onComp, arrSet, if_neg hn, Option.map_none]

theorem sim_findIndex2 (n : Nat) : Sim L (findIndex2 n) (findIndex2H n) := by
  unfold findIndex2 findIndex2H
  intro p m hi
  by_cases hn : n < 4
  · have hl := look_ok hi.i2 hi.h2 (p.data2 n)
    simp only [bind, M.bind, M.update, M.get, M.access, onComp, arrSet, arrGet, if_pos hn, Option.map_some, pure, hl]
    cases hh : p.ht2 (p.data2 n) with
    | nil => exact ⟨m, rfl, hi.same ⟨rfl, rfl, rfl, rfl, rfl, rfl⟩⟩
    | cons i is => exact ⟨m, rfl, hi.same ⟨rfl, rfl, rfl, rfl, rfl, rfl⟩⟩
  · simp only [bind, M.bind, M.update, onComp, arrSet, if_neg hn, Option.map_none]

theorem sim_checkActions (ts : List Nat) (b : Nat) : Sim L (checkActions ts b) (checkActionsH ts b) := by
  induction ts generalizing b with
  | nil => exact .pure _
  | cons t ts ih =>
    unfold checkActions checkActionsH checkIndex2 checkIndex4 checkIndex8 checkIndex2H checkIndex4H checkIndex8H
    dsimp only
    repeat' first
      | exact ih _
      | exact .pure _
      | exact sim_findIndex8 _
      | exact sim_findIndex4 _
      | exact sim_findIndex2 _
      | exact .lift (.access _)
      | exact .lift .get
      | refine Sim.ite ?_ ?_
      | refine Sim.bind ?_ fun _ => ?_

theorem sim_checkTemplate (c : Nat) : Sim L (checkTemplate c) (checkTemplateH c) := by
  unfold checkTemplate checkTemplateH
  exact .ite (.pure _) (.bind (.lift (.access _)) fun t => sim_checkActions _ _)

theorem sim_findTemplate (k i : Nat) : Sim L (findTemplate k i) (findTemplateH k i) := by
  induction k generalizing i with
  | zero => exact .pure _
  | succ k ih => exact .bind (sim_checkTemplate _) fun m => .ite (.pure _) (ih _)

theorem sim_processNext (e : Endian) : Sim L (processNext e) (processNextH e) := by
  unfold processNext processNextH
  exact .bind (.lift (.modify fun _ => ⟨rfl, rfl, rfl, rfl, rfl, rfl⟩)) fun _ => .bind (sim_findTemplate _ _) fun i =>
    .lift (keeps_addTemplate _ _)

theorem sim_compStep (e : Endian) (next last : BitVec 64) (rc : Nat) : Sim L (compStep e next last rc) (compStepH e next last rc) := by
  unfold compStep compStepH
  dsimp only
  repeat' first
    | exact .pure _
    | exact sim_processNext e
    | exact .lift (.liftW _)
    | exact .lift (.ignore (keeps_addRepeat _ _))
    | refine Sim.ite ?_ ?_
    | refine Sim.bind ?_ fun _ => ?_

theorem sim_replaceHash8 (i d : Nat) : Sim L (replaceHash8 i d) (replaceHash8H i d) := by
  intro p m hi
  unfold replaceHash8H
  by_cases hn : i + d < 256
  · obtain ⟨hp1, t1, -⟩ := dropIdx_ok hi.i8 hi.h8 (i + d)
    by_cases hd : d < 1
    · have hlen : (cells m.t4).length ≤ 2 * 512 := hi.i4.count
      have hlen2 : (cells m.t2).length ≤ 2 * 256 := hi.i2.count
      obtain ⟨hp1, t1, hp2, t2, a1, a2, a3, a4, a5⟩ := replace_ok hi.i8 hi.h8 (p.data8 d) hn
        (by have := hi.lim; simp only [List.length_append, List.length_cons]; omega)
      have hmod : (i + d) % 2 ^ 8 = i + d := Nat.mod_eq_of_lt hn
      simp only [replaceHash8, bind, M.bind, M.update, M.get, M.modify, M.access, onComp, mem8, arrSet, arrGet, if_pos hn, if_pos hd,
        Option.map_some, a1, hmod, a2]
      refine ⟨_, rfl, a3, hi.i4, hi.i2, ?_, by simp only [a5]; exact hi.lim⟩
      refine a4.congr ?_
      rw [List.perm_iff_count]; intro q
      simp only [List.count_append, List.count_cons]; omega
    · obtain ⟨hp1, t1, a1, -⟩ := dropIdx_ok hi.i8 hi.h8 (i + d)
      simp only [replaceHash8, bind, M.bind, M.update, M.get, M.modify, M.access, onComp, mem8, arrGet, if_pos hn, if_neg hd,
        Option.map_some, a1]
  · simp only [replaceHash8, bind, M.bind, M.get, M.access, onComp, arrGet, if_neg hn]

theorem sim_replaceHash4 (i d : Nat) : Sim L (replaceHash4 i d) (replaceHash4H i d) := by
  intro p m hi
  unfold replaceHash4H
  by_cases hn : i + d < 512
  · by_cases hd : d < 2
    · have hlen : (cells m.t8).length ≤ 2 * 256 := hi.i8.count
      have hlen2 : (cells m.t2).length ≤ 2 * 256 := hi.i2.count
      obtain ⟨hp1, t1, hp2, t2, a1, a2, a3, a4, a5⟩ := replace_ok hi.i4 hi.h4 (p.data4 d) hn
        (by have := hi.lim; simp only [List.length_append, List.length_cons]; omega)
      have hmod : (i + d) % 2 ^ 16 = i + d := Nat.mod_eq_of_lt (by omega)
      simp only [replaceHash4, bind, M.bind, M.update, M.get, M.modify, M.access, onComp, mem4, arrSet, arrGet, if_pos hn, if_pos hd,
        Option.map_some, a1, hmod, a2]
      refine ⟨_, rfl, hi.i8, a3, hi.i2, ?_, by simp only [a5]; exact hi.lim⟩
      refine a4.congr ?_
      rw [List.perm_iff_count]; intro q
      simp only [List.count_append, List.count_cons]; omega
    · obtain ⟨hp1, t1, a1, -⟩ := dropIdx_ok hi.i4 hi.h4 (i + d)
      simp only [replaceHash4, bind, M.bind, M.update, M.get, M.modify, M.access, onComp, mem4, arrGet, if_pos hn, if_neg hd,
        Option.map_some, a1]
  · simp only [replaceHash4, bind, M.bind, M.get, M.access, onComp, arrGet, if_neg hn]

theorem sim_replaceHash2 (i d : Nat) : Sim L (replaceHash2 i d) (replaceHash2H i d) := by
  intro p m hi
  unfold replaceHash2H
  by_cases hn : i + d < 256
  · by_cases hd : d < 4
    · have hlen : (cells m.t8).length ≤ 2 * 256 := hi.i8.count
      have hlen2 : (cells m.t4).length ≤ 2 * 512 := hi.i4.count
      obtain ⟨hp1, t1, hp2, t2, a1, a2, a3, a4, a5⟩ := replace_ok hi.i2 hi.h2 (p.data2 d) hn
        (by have := hi.lim; simp only [List.length_append, List.length_cons]; omega)
      have hmod : (i + d) % 2 ^ 8 = i + d := Nat.mod_eq_of_lt (by omega)
      simp only [replaceHash2, bind, M.bind, M.update, M.get, M.modify, M.access, onComp, mem2, arrSet, arrGet, if_pos hn, if_pos hd,
        Option.map_some, a1, hmod, a2]
      refine ⟨_, rfl, hi.i8, hi.i4, a3, ?_, by simp only [a5]; exact hi.lim⟩
      refine a4.congr ?_
      rw [List.perm_iff_count]; intro q
      simp only [List.count_append, List.count_cons]; omega
    · obtain ⟨hp1, t1, a1, -⟩ := dropIdx_ok hi.i2 hi.h2 (i + d)
      simp only [replaceHash2, bind, M.bind, M.update, M.get, M.modify, M.access, onComp, mem2, arrGet, if_pos hn, if_neg hd,
        Option.map_some, a1]
  · simp only [replaceHash2, bind, M.bind, M.get, M.access, onComp, arrGet, if_neg hn]

theorem sim_updateHashtables : Sim L updateHashtables updateHashtablesH := by
  unfold updateHashtables updateHashtablesH
  exact .bind (.lift .get) fun p => .bind (sim_replaceHash8 _ _) fun _ => .bind (sim_replaceHash4 _ _) fun _ =>
    .bind (sim_replaceHash4 _ _) fun _ => .bind (sim_replaceHash2 _ _) fun _ => .bind (sim_replaceHash2 _ _) fun _ =>
    .bind (sim_replaceHash2 _ _) fun _ => sim_replaceHash2 _ _

theorem sim_compLoop (e : Endian) (fuel : Nat) (last : BitVec 64) (rc : Nat) :
    Sim L (compLoop e fuel last rc) (compLoopH e fuel last rc) := by
  induction fuel generalizing last rc with
  | zero => exact fun _ _ _ => rfl
  | succ fuel ih =>
    unfold compLoop compLoopH
    exact .bind (.lift .get) fun p => .ite (.bind (.lift (.access _)) fun next => .bind (.lift (keeps_getNextData e)) fun _ =>
      .bind (sim_compStep _ _ _ _) fun rc => .bind sim_updateHashtables fun _ =>
      .bind (.lift (.modify fun _ => ⟨rfl, rfl, rfl, rfl, rfl, rfl⟩)) fun _ => ih _ _) (.pure _)

theorem sim_compBody (e : Endian) (addr fuel : Nat) (inp : List Byte) (total : Nat) :
    Sim L (compBody e addr fuel inp total) (compBodyH e addr fuel inp total) := by
  unfold compBody compBodyH
  dsimp only
  repeat' first
    | exact .pure _
    | exact sim_compLoop _ _ _ _
    | exact .lift .get
    | exact .lift (.fail _)
    | exact .lift (.access _)
    | exact .lift (.liftW _)
    | exact .lift (keeps_addRepeat _ _)
    | exact .lift (keeps_addShortData _ _)
    | exact .lift (.modify fun _ => ⟨rfl, rfl, rfl, rfl, rfl, rfl⟩)
    | refine Sim.ite ?_ ?_
    | refine Sim.bind ?_ fun _ => ?_

theorem MInv.cleanup {p : Comp} {m : Mem} (h : MInv L p m) : ∃ hp, cleanupH m = some hp ∧ HInv hp L := by
  obtain ⟨hp1, a1, a2⟩ := destroy_ok h.h8
  have p1 : (m.param :: (cells m.t4 ++ (cells m.t2 ++ L))).Perm (cells m.t4 ++ (m.param :: (cells m.t2 ++ L))) := by
    rw [List.perm_iff_count]; intro q
    simp only [List.count_append, List.count_cons]; omega
  obtain ⟨hp2, b1, b2⟩ := destroy_ok (a2.congr p1)
  have p2 : (m.param :: (cells m.t2 ++ L)).Perm (cells m.t2 ++ (m.param :: L)) := by
    rw [List.perm_iff_count]; intro q
    simp only [List.count_append, List.count_cons]; omega
  obtain ⟨hp3, c1, c2⟩ := destroy_ok (b2.congr p2)
  obtain ⟨hp4, d1, d2, -⟩ := c2.free
  exact ⟨hp4, by unfold cleanupH; simp only [a1, b1, c1, d1], d2⟩

theorem TInv.init {w : Nat} (N : Nat) : TInv (w := w) N [] (fun _ => []) (fun _ => 0) :=
  ⟨List.nodup_nil, by simp, by simp, fun _ _ => rfl, by simp, fun _ => List.nodup_nil⟩

theorem sw842CompressH_ok (e : Endian) (addr : Nat) (j : CompJunk) (x buf : List Byte) (hp : Heap)
    (hn : hp.live.Nodup) (hf : ∀ c ∈ hp.live, c < hp.next) (hl : hp.live.length + 2049 ≤ hp.limit) :
    match compBody e addr (x.length / 8 + 1) x buf.length (compInit j x buf) with
    | .ok n p => ∃ hp', sw842CompressH e addr j x buf hp = some (.ret none n p.w.buf, hp') ∧ hp'.live.Perm hp.live
    | .err er p => ∃ hp', sw842CompressH e addr j x buf hp = some (.ret (some er) 0 p.w.buf, hp') ∧ hp'.live.Perm hp.live
    | .ub => True
    | .timeout => True := by
  have hh : HInv hp hp.live := ⟨List.Perm.refl _, hn, hf⟩
  have hm : hp.malloc = some (hp.next, { hp with next := hp.next + 1, live := hp.next :: hp.live }) := by
    unfold Heap.malloc
    rw [if_pos (by omega)]
  have hi : MInv hp.live (compInit j x buf) ⟨{ hp with next := hp.next + 1, live := hp.next :: hp.live }, hp.next, [], [], []⟩ := by
    refine ⟨TInv.init _, TInv.init _, TInv.init _, ⟨List.Perm.refl _, ?_, ?_⟩, hl⟩
    · exact List.nodup_cons.2 ⟨fun h => Nat.lt_irrefl _ (hf _ h), hn⟩
    · intro c hc
      rcases List.mem_cons.1 hc with rfl | hc
      · exact Nat.lt_succ_self _
      · exact Nat.lt_succ_of_lt (hf c hc)
  have h := sim_compBody e addr (x.length / 8 + 1) x buf.length _ _ hi
  unfold sw842CompressH
  simp only [hm]
  cases hr : compBody e addr (x.length / 8 + 1) x buf.length (compInit j x buf) with
  | ok n p =>
    rw [hr] at h
    obtain ⟨m, h1, h2⟩ := h
    obtain ⟨hp', h3, h4⟩ := h2.cleanup
    exact ⟨hp', by simp only [h1, h3, Option.map_some], h4.perm⟩
  | err er p =>
    rw [hr] at h
    obtain ⟨m, h1, h2⟩ := h
    obtain ⟨hp', h3, h4⟩ := h2.cleanup
    exact ⟨hp', by simp only [h1, h3, Option.map_some], h4.perm⟩
  | ub => trivial
  | timeout => trivial

end Lib842.SwHeap
