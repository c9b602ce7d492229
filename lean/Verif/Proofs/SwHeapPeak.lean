import Verif.Proofs.SwHeap
import Verif.Proofs.SwCall
import Verif.SpecHeap
import Mathlib.Data.Finset.Card
/-!
# How much memory the serial compressor needs: helper lemmas
-/

namespace Lib842.SwHeap
open Spec

/-! ## Heaps that differ in their limit -/

def _root_.Lib842.Heap.lim (hp : Heap) (l : Nat) : Heap := { hp with limit := l }
def _root_.Lib842.Mem.lim (m : Mem) (l : Nat) : Mem := { m with heap := m.heap.lim l }

def olim {α : Type} (l : Nat) : Outcome (Comp × Mem) α → Outcome (Comp × Mem) α
  | .ok a s => .ok a (s.1, s.2.lim l)
  | .err e s => .err e (s.1, s.2.lim l)
  | .ub => .ub
  | .timeout => .timeout

/-- The limit does not matter. -/
def Agn {α : Type} (x : M (Comp × Mem) α) : Prop := ∀ p m l, x (p, m.lim l) = olim l (x (p, m))

theorem Agn.pure {α : Type} (a : α) : Agn (Pure.pure a : M (Comp × Mem) α) := fun _ _ _ => rfl

theorem Agn.onComp {α : Type} (x : M Comp α) : Agn (onComp x) := by
  intro p m l
  unfold Lib842.onComp
  cases x p <;> rfl

theorem Agn.bind {α β : Type} {x : M (Comp × Mem) α} {f : α → M (Comp × Mem) β} (hx : Agn x) (hf : ∀ a, Agn (f a)) :
    Agn (x >>= f) := by
  intro p m l
  show M.bind x f _ = olim l (M.bind x f _)
  unfold M.bind
  rw [hx]
  cases h : x (p, m) with
  | ok a s => exact hf a s.1 s.2 l
  | err e s => rfl
  | ub => rfl
  | timeout => rfl

theorem Agn.ite {α : Type} {c : Prop} [Decidable c] {x y : M (Comp × Mem) α} (hx : Agn x) (hy : Agn y) :
    Agn (if c then x else y) := by
  split <;> assumption

theorem agn_look {w : Nat} (f : Mem → List (HNode w)) (hf : ∀ m l, f (m.lim l) = f m) (k : BitVec w) :
    Agn (M.access fun s => lookTab s.2.heap (f s.2) k) := by
  intro p m l
  have h : lookTab (m.lim l).heap (f (m.lim l)) k = lookTab m.heap (f m) k := by rw [hf]; rfl
  unfold M.access
  simp only [h]
  cases lookTab m.heap (f m) k <;> rfl

theorem agn_findIndex8 (n : Nat) : Agn (findIndex8H n) := by
  unfold findIndex8H
  refine .bind (.onComp _) fun _ => .bind (.onComp _) fun k => .bind (agn_look _ (fun _ _ => rfl) k) fun r => ?_
  cases r with
  | none => exact .bind (.onComp _) fun _ => .pure _
  | some i => exact .bind (.onComp _) fun _ => .bind (.onComp _) fun _ => .pure _
theorem agn_findIndex4 (n : Nat) : Agn (findIndex4H n) := by
  unfold findIndex4H
  refine .bind (.onComp _) fun _ => .bind (.onComp _) fun k => .bind (agn_look _ (fun _ _ => rfl) k) fun r => ?_
  cases r with
  | none => exact .bind (.onComp _) fun _ => .pure _
  | some i => exact .bind (.onComp _) fun _ => .bind (.onComp _) fun _ => .pure _
theorem agn_findIndex2 (n : Nat) : Agn (findIndex2H n) := by
  unfold findIndex2H
  refine .bind (.onComp _) fun _ => .bind (.onComp _) fun k => .bind (agn_look _ (fun _ _ => rfl) k) fun r => ?_
  cases r with
  | none => exact .bind (.onComp _) fun _ => .pure _
  | some i => exact .bind (.onComp _) fun _ => .bind (.onComp _) fun _ => .pure _

theorem agn_checkIndex8 (n : Nat) : Agn (checkIndex8H n) :=
  .bind (.onComp _) fun _ => .ite (agn_findIndex8 n) (.pure _)
theorem agn_checkIndex4 (n : Nat) : Agn (checkIndex4H n) :=
  .bind (.onComp _) fun _ => .ite (agn_findIndex4 n) (.pure _)
theorem agn_checkIndex2 (n : Nat) : Agn (checkIndex2H n) :=
  .bind (.onComp _) fun _ => .ite (agn_findIndex2 n) (.pure _)

theorem agn_checkActions (ts : List Nat) (b : Nat) : Agn (checkActionsH ts b) := by
  induction ts generalizing b with
  | nil => exact .pure _
  | cons t ts ih =>
    unfold checkActionsH
    dsimp only
    exact .ite (.ite (.bind (agn_checkIndex2 _) fun m => .ite (ih _) (.pure _))
      (.ite (.bind (agn_checkIndex4 _) fun m => .ite (ih _) (.pure _))
      (.ite (.bind (agn_checkIndex8 _) fun m => .ite (ih _) (.pure _))
      (.bind (.pure _) fun m => .ite (ih _) (.pure _))))) (ih _)

theorem agn_checkTemplate (c : Nat) : Agn (checkTemplateH c) :=
  .ite (.pure _) (.bind (.onComp _) fun _ => agn_checkActions _ _)

theorem agn_findTemplate (k i : Nat) : Agn (findTemplateH k i) := by
  induction k generalizing i with
  | zero => exact .pure _
  | succ k ih => exact .bind (agn_checkTemplate _) fun m => .ite (.pure _) (ih _)

theorem agn_processNext (e : Endian) : Agn (processNextH e) :=
  .bind (.onComp _) fun _ => .bind (agn_findTemplate _ _) fun _ => .onComp _

theorem agn_compStep (e : Endian) (next last : BitVec 64) (rc : Nat) : Agn (compStepH e next last rc) := by
  unfold compStepH
  dsimp only
  exact .ite (.pure _) (.ite (.bind (.onComp _) fun _ => .ite (.pure _)
    (.ite (.bind (.onComp _) fun _ => .pure _) (.bind (agn_processNext e) fun _ => .pure _)))
    (.ite (.bind (.onComp _) fun _ => .pure _) (.bind (agn_processNext e) fun _ => .pure _)))

/-! ## Operations on the tables -/

theorem free_lim (hp : Heap) (c l : Nat) : (hp.lim l).free c = (hp.free c).map (Heap.lim · l) := by
  unfold Heap.free Heap.lim
  dsimp only
  split <;> rfl

theorem dropIdx_lim {w : Nat} (hp : Heap) (t : List (HNode w)) (old : BitVec w) (i l : Nat) :
    dropIdx (hp.lim l) t old i = (dropIdx hp t old i).map fun r => (r.1.lim l, r.2) := by
  unfold dropIdx
  have h : okTab (hp.lim l) t = okTab hp t := rfl
  rw [h]
  split
  · cases t.find? (fun h => h.data = old) with
    | none => rfl
    | some h =>
      dsimp only
      cases h.els.find? (fun e => e.2 = i) with
      | none => rfl
      | some e =>
        dsimp only
        rw [free_lim]
        cases hp.free e.1 with
        | none => rfl
        | some hp1 =>
          simp only [Option.map_some]
          split
          · rw [free_lim]
            cases hp1.free h.cell <;> rfl
          · rfl
  · rfl

theorem dropIdx_limit {w : Nat} {hp : Heap} {t : List (HNode w)} {old : BitVec w} {i : Nat} {hp' : Heap}
    {t' : List (HNode w)} (h : dropIdx hp t old i = some (hp', t')) : hp'.limit = hp.limit := by
  have h1 := dropIdx_lim hp t old i hp.limit
  rw [show hp.lim hp.limit = hp from rfl, h] at h1
  simp only [Option.map_some, Option.some.injEq, Prod.mk.injEq, and_true] at h1
  rw [h1]
  rfl

theorem malloc_some {hp hp' : Heap} {c : Nat} (h : hp.malloc = some (c, hp')) :
    c = hp.next ∧ hp' = { hp with next := hp.next + 1, live := hp.next :: hp.live } ∧ hp.live.length < hp.limit := by
  unfold Heap.malloc at h
  split at h
  · cases h; exact ⟨rfl, rfl, by assumption⟩
  · cases h

theorem addIdx_lim {w : Nat} {hp : Heap} {t : List (HNode w)} {new : BitVec w} {i l : Nat} {hp' : Heap} {t' : List (HNode w)}
    (h : addIdx (hp.lim l) t new i = some (hp', t')) :
    hp'.limit = l ∧ addIdx hp t new i = if hp'.live.length ≤ hp.limit then some (hp'.lim hp.limit, t') else none := by
  unfold addIdx at h ⊢
  have h0 : okTab (hp.lim l) t = okTab hp t := rfl
  rw [h0] at h
  split at h
  · rename_i hok
    rw [if_pos hok]
    unfold getNode at h ⊢
    cases hf : t.find? (fun h => decide (h.data = new)) with
    | none =>
      rw [hf] at h
      dsimp only at h ⊢
      rcases hm : (hp.lim l).malloc with _ | ⟨c, hp1⟩
      · rw [hm] at h; cases h
      · rw [hm] at h
        dsimp only at h
        rcases hm2 : hp1.malloc with _ | ⟨c2, hp2⟩
        · rw [hm2] at h; cases h
        · rw [hm2] at h
          cases h
          obtain ⟨rfl, rfl, a3⟩ := malloc_some hm
          obtain ⟨rfl, rfl, b3⟩ := malloc_some hm2
          refine ⟨rfl, ?_⟩
          by_cases h1 : hp.live.length < hp.limit
          · have e1 : hp.malloc = some (hp.next, { hp with next := hp.next + 1, live := hp.next :: hp.live }) := by
              unfold Heap.malloc; rw [if_pos h1]
            rw [e1]
            dsimp only
            unfold Heap.malloc
            simp only [List.length_cons]
            by_cases h2 : hp.live.length + 1 < hp.limit
            · rw [if_pos h2, if_pos (by simp only [Heap.lim, List.length_cons]; omega)]
              rfl
            · rw [if_neg h2, if_neg (by simp only [Heap.lim, List.length_cons]; omega)]
          · have e1 : hp.malloc = none := by
              unfold Heap.malloc; rw [if_neg h1]
            rw [e1]
            dsimp only
            rw [if_neg (by simp only [Heap.lim, List.length_cons]; omega)]
    | some n =>
      rw [hf] at h
      dsimp only at h ⊢
      rcases hm : (hp.lim l).malloc with _ | ⟨c, hp1⟩
      · rw [hm] at h; cases h
      · rw [hm] at h
        cases h
        obtain ⟨rfl, rfl, a3⟩ := malloc_some hm
        refine ⟨rfl, ?_⟩
        unfold Heap.malloc
        by_cases h1 : hp.live.length < hp.limit
        · rw [if_pos h1, if_pos (by simp only [Heap.lim, List.length_cons]; omega)]
          rfl
        · rw [if_neg h1, if_neg (by simp only [Heap.lim, List.length_cons]; omega)]
  · cases h

/-- What the small heap does, given what the big heap does -/
def Capped (x : M (Comp × Mem) Unit) : Prop :=
  ∀ s m l s' M', x (s, m.lim l) = .ok () (s', M') →
    M'.heap.limit = l ∧
    x (s, m) = if M'.heap.live.length ≤ m.heap.limit then .ok () (s', M'.lim m.heap.limit) else .ub

theorem capped_replaceHash8 (i d : Nat) : Capped (replaceHash8H i d) := by
  intro s m l s' M' h
  unfold replaceHash8H mem8 at h ⊢
  simp only [bind, M.bind, M.update, M.access, onComp] at h ⊢
  rcases h1 : arrGet 256 s.node8 (i + d) with _ | old
  · rw [h1] at h; cases h
  rw [h1] at h
  dsimp only at h ⊢
  rw [show (m.lim l).heap = m.heap.lim l from rfl, dropIdx_lim] at h
  rw [show (m.lim l).t8 = m.t8 from rfl] at h
  rcases h2 : dropIdx m.heap m.t8 old (i + d) with _ | ⟨hp1, t1⟩
  · rw [h2] at h; cases h
  rw [h2] at h
  simp only [Option.map_some] at h ⊢
  rcases h3 : arrGet 1 s.data8 d with _ | new
  · rw [h3] at h; cases h
  rw [h3] at h
  dsimp only at h ⊢
  rcases h4 : addIdx (hp1.lim l) t1 new ((i + d) % 2 ^ 8) with _ | ⟨hp2, t2⟩
  · rw [h4] at h; cases h
  rw [h4] at h
  have hl := dropIdx_limit h2
  obtain ⟨h5, h6⟩ := addIdx_lim h4
  rw [hl] at h6
  rw [h6]
  simp only [Option.map_some] at h ⊢
  rcases h7 : replaceHash8 i d s with ⟨a, s1⟩ | ⟨er, s1⟩ | _ | _ <;> rw [h7] at h <;> cases h
  refine ⟨h5, ?_⟩
  by_cases hc : hp2.live.length ≤ m.heap.limit
  · simp only [if_pos hc, Option.map_some, h7]
    rfl
  · simp only [if_neg hc, Option.map_none]

theorem capped_replaceHash4 (i d : Nat) : Capped (replaceHash4H i d) := by
  intro s m l s' M' h
  unfold replaceHash4H mem4 at h ⊢
  simp only [bind, M.bind, M.update, M.access, onComp] at h ⊢
  rcases h1 : arrGet 512 s.node4 (i + d) with _ | old
  · rw [h1] at h; cases h
  rw [h1] at h
  dsimp only at h ⊢
  rw [show (m.lim l).heap = m.heap.lim l from rfl, dropIdx_lim] at h
  rw [show (m.lim l).t4 = m.t4 from rfl] at h
  rcases h2 : dropIdx m.heap m.t4 old (i + d) with _ | ⟨hp1, t1⟩
  · rw [h2] at h; cases h
  rw [h2] at h
  simp only [Option.map_some] at h ⊢
  rcases h3 : arrGet 2 s.data4 d with _ | new
  · rw [h3] at h; cases h
  rw [h3] at h
  dsimp only at h ⊢
  rcases h4 : addIdx (hp1.lim l) t1 new ((i + d) % 2 ^ 16) with _ | ⟨hp2, t2⟩
  · rw [h4] at h; cases h
  rw [h4] at h
  have hl := dropIdx_limit h2
  obtain ⟨h5, h6⟩ := addIdx_lim h4
  rw [hl] at h6
  rw [h6]
  simp only [Option.map_some] at h ⊢
  rcases h7 : replaceHash4 i d s with ⟨a, s1⟩ | ⟨er, s1⟩ | _ | _ <;> rw [h7] at h <;> cases h
  refine ⟨h5, ?_⟩
  by_cases hc : hp2.live.length ≤ m.heap.limit
  · simp only [if_pos hc, Option.map_some, h7]
    rfl
  · simp only [if_neg hc, Option.map_none]

theorem capped_replaceHash2 (i d : Nat) : Capped (replaceHash2H i d) := by
  intro s m l s' M' h
  unfold replaceHash2H mem2 at h ⊢
  simp only [bind, M.bind, M.update, M.access, onComp] at h ⊢
  rcases h1 : arrGet 256 s.node2 (i + d) with _ | old
  · rw [h1] at h; cases h
  rw [h1] at h
  dsimp only at h ⊢
  rw [show (m.lim l).heap = m.heap.lim l from rfl, dropIdx_lim] at h
  rw [show (m.lim l).t2 = m.t2 from rfl] at h
  rcases h2 : dropIdx m.heap m.t2 old (i + d) with _ | ⟨hp1, t1⟩
  · rw [h2] at h; cases h
  rw [h2] at h
  simp only [Option.map_some] at h ⊢
  rcases h3 : arrGet 4 s.data2 d with _ | new
  · rw [h3] at h; cases h
  rw [h3] at h
  dsimp only at h ⊢
  rcases h4 : addIdx (hp1.lim l) t1 new ((i + d) % 2 ^ 8) with _ | ⟨hp2, t2⟩
  · rw [h4] at h; cases h
  rw [h4] at h
  have hl := dropIdx_limit h2
  obtain ⟨h5, h6⟩ := addIdx_lim h4
  rw [hl] at h6
  rw [h6]
  simp only [Option.map_some] at h ⊢
  rcases h7 : replaceHash2 i d s with ⟨a, s1⟩ | ⟨er, s1⟩ | _ | _ <;> rw [h7] at h <;> cases h
  refine ⟨h5, ?_⟩
  by_cases hc : hp2.live.length ≤ m.heap.limit
  · simp only [if_pos hc, Option.map_some, h7]
    rfl
  · simp only [if_neg hc, Option.map_none]

/-! ## Sizes of the tables -/

/-- Contents of the slots after `k` pieces: the last piece with the number of the slot modulo `N` -/
def slotsK (w n N : Nat) (x : List Byte) (k : Nat) (j : Nat) : Option (BitVec w) :=
  if j < N ∧ j < k then some (key w x (n * (k - 1 - (k - 1 - j) % N))) else none

theorem slotsK_zero (w n N : Nat) (x : List Byte) : slotsK w n N x 0 = fun _ => none := by
  funext j
  unfold slotsK
  rw [if_neg (by omega)]

theorem slotsK_succ (w n N : Nat) (hN : 0 < N) (x : List Byte) (k : Nat) :
    slotsK w n N x (k + 1) = upd (slotsK w n N x k) (k % N) (some (key w x (n * k))) := by
  funext j
  unfold upd slotsK
  have hk := Nat.mod_lt k hN
  have hk2 := Nat.div_add_mod k N
  by_cases hj : j = k % N
  · have hle : j ≤ k := by rw [hj]; exact Nat.mod_le k N
    rw [if_pos hj, if_pos ⟨by omega, by omega⟩]
    have : (k + 1 - 1 - j) % N = 0 := by
      have : k + 1 - 1 - j = N * (k / N) := by omega
      rw [this, Nat.mul_mod_right]
    rw [this]
    simp
  · rw [if_neg hj]
    by_cases hc : j < N ∧ j < k
    · rw [if_pos hc, if_pos ⟨hc.1, by omega⟩]
      have h1 : (k - j) % N ≠ 0 := by
        intro h
        apply hj
        have h2 : k % N = j % N := by
          obtain ⟨q, hq⟩ := Nat.dvd_of_mod_eq_zero h
          have : k = j + N * q := by omega
          rw [this, Nat.add_mul_mod_self_left]
        rw [h2, Nat.mod_eq_of_lt hc.1]
      have h3 : (k - j) % N = (k - 1 - j) % N + 1 := by
        have h4 := Nat.mod_lt (k - 1 - j) hN
        have h5 := Nat.div_add_mod (k - 1 - j) N
        have h6 : k - j = ((k - 1 - j) % N + 1) + N * ((k - 1 - j) / N) := by omega
        by_cases h7 : (k - 1 - j) % N + 1 = N
        · exfalso
          apply h1
          rw [h6, h7, Nat.add_mul_mod_self_left, Nat.mod_self]
        · conv_lhs => rw [h6]
          rw [Nat.add_mul_mod_self_left, Nat.mod_eq_of_lt (by omega)]
      rw [Nat.add_sub_cancel, h3]
      congr 3
      have := Nat.mod_le (k - 1 - j) N
      omega
    · rw [if_neg hc, if_neg]
      rintro ⟨a, b⟩
      have : j = k := by omega
      subst this
      exact hj (Nat.mod_eq_of_lt a).symm

/-- The values in the slots are those of the last `N` pieces. -/
theorem slotsK_values (w n N : Nat) (hN : 0 < N) (x : List Byte) (k : Nat) (v : BitVec w) :
    (∃ j, slotsK w n N x k j = some v) ↔ v ∈ ((List.range k).drop (k - N)).map fun i => key w x (n * i) := by
  have hr : ∀ i, i ∈ (List.range k).drop (k - N) ↔ k - N ≤ i ∧ i < k := by
    intro i
    rw [List.range_eq_range', List.drop_range', List.mem_range'_1]
    omega
  rw [List.mem_map]
  constructor
  · rintro ⟨j, hj⟩
    unfold slotsK at hj
    split at hj
    · rename_i hc
      refine ⟨_, (hr _).2 ?_, Option.some.inj hj⟩
      have := Nat.mod_lt (k - 1 - j) hN
      have := Nat.mod_le (k - 1 - j) N
      omega
    · cases hj
  · rintro ⟨i, hi, hv⟩
    rw [hr] at hi
    refine ⟨i % N, ?_⟩
    unfold slotsK
    have h1 := Nat.mod_lt i hN
    have h2 := Nat.mod_le i N
    rw [if_pos ⟨h1, by omega⟩, ← hv]
    have h3 := Nat.div_add_mod i N
    have h4 : (k - 1 - i % N) % N = k - 1 - i := by
      have : k - 1 - i % N = (k - 1 - i) + N * (i / N) := by omega
      rw [this, Nat.add_mul_mod_self_left, Nat.mod_eq_of_lt (by omega)]
    rw [h4]
    congr 3
    omega

theorem cells_eq {w : Nat} (t : List (HNode w)) :
    (cells t).length = t.length + (t.flatMap fun n => n.els.map Prod.snd).length := by
  induction t with
  | nil => rfl
  | cons n t ih =>
    rw [cells_cons, List.flatMap_cons, List.length_append, List.length_append, HNode.cells, List.length_cons,
      List.length_map, List.length_map, List.length_cons, ih]
    omega

theorem dedup_card {α : Type} [DecidableEq α] (l : List α) : l.dedup.length = l.toFinset.card := by
  rw [List.card_toFinset]

theorem dedup_map_length {α β : Type} [DecidableEq α] [DecidableEq β] (f : α → β) (l : List α)
    (h : ∀ a ∈ l, ∀ b ∈ l, f a = f b → a = b) : (l.map f).dedup.length = l.dedup.length := by
  rw [dedup_card, dedup_card]
  have : (l.map f).toFinset = l.toFinset.image f := by
    ext b; simp
  rw [this]
  apply Finset.card_image_of_injOn
  intro a ha b hb
  exact h a (List.mem_toFinset.1 ha) b (List.mem_toFinset.1 hb)

theorem TInv.blocks {w n N : Nat} (hN : 0 < N) (hw : w = n * 8) (hn : 0 < n) {t : List (HNode w)} {D : Dict w}
    {x : List Byte} {k : Nat}
    (h : TInv N t D.ht D.node) (hD : D.Rep (slotsK w n N x k)) (hk : n * k ≤ x.length) :
    (cells t).length = dictBlocks n N x k := by
  have hw8 : w / 8 = n := by omega
  rw [cells_eq]
  have hlen : (dictPieces n N x k).length = min N k := by
    unfold dictPieces
    rw [List.length_map, List.length_drop, List.length_range]
    omega
  have h1 : (t.flatMap fun n => n.els.map Prod.snd).length = min N k := by
    have hp : (t.flatMap fun n => n.els.map Prod.snd).Perm (List.range (min N k)) := by
      rw [List.perm_ext_iff_of_nodup h.slots_nodup List.nodup_range]
      intro j
      rw [List.mem_range, List.mem_flatMap]
      constructor
      · rintro ⟨m, hm, hj⟩
        rw [h.rep m hm, hD.mem] at hj
        unfold slotsK at hj
        split at hj
        · omega
        · cases hj
      · intro hj
        have hs : slotsK w n N x k j = some (key w x (n * (k - 1 - (k - 1 - j) % N))) := by
          unfold slotsK
          rw [if_pos (by omega)]
        have hm := (hD.mem _ _).2 hs
        by_contra hne
        have : D.ht (key w x (n * (k - 1 - (k - 1 - j) % N))) = [] := by
          apply h.out
          intro m hm' hd
          exact hne ⟨m, hm', by rw [h.rep m hm', hd]; exact hm⟩
        rw [this] at hm
        cases hm
    rw [hp.length_eq, List.length_range]
  have h2 : t.length = (dictPieces n N x k).dedup.length := by
    have hp : (t.map HNode.data).Perm (((List.range k).drop (k - N)).map fun i => key w x (n * i)).dedup := by
      rw [List.perm_ext_iff_of_nodup h.keys (List.nodup_dedup _)]
      intro v
      rw [List.mem_dedup, ← slotsK_values w n N hN x k v, List.mem_map]
      constructor
      · rintro ⟨m, hm, rfl⟩
        obtain ⟨a, ha⟩ := List.exists_mem_of_ne_nil _ (h.ne m hm)
        exact ⟨a.2, (hD.mem _ _).1 (by rw [← h.rep m hm]; exact List.mem_map_of_mem ha)⟩
      · rintro ⟨j, hj⟩
        have hm := (hD.mem _ _).2 hj
        by_contra hne
        have : D.ht v = [] := h.out _ fun m hm' hd => hne ⟨m, hm', hd⟩
        rw [this] at hm
        cases hm
    have h3 := hp.length_eq
    rw [List.length_map] at h3
    rw [h3]
    have hmap : (((List.range k).drop (k - N)).map fun i => key w x (n * i)) =
        (dictPieces n N x k).map fun b => BitVec.ofNat w (bitsVal (bytesBits b)) := by
      unfold dictPieces
      rw [List.map_map]
      apply List.map_congr_left
      intro i _
      simp only [Function.comp, key, slice, hw8]
    rw [hmap]
    apply dedup_map_length
    intro a ha b hb hab
    unfold dictPieces at ha hb
    obtain ⟨i, hi, rfl⟩ := List.mem_map.1 ha
    obtain ⟨j, hj, rfl⟩ := List.mem_map.1 hb
    have hi' := List.mem_range.1 (List.mem_of_mem_drop hi)
    have hj' := List.mem_range.1 (List.mem_of_mem_drop hj)
    have e1 : n * i + n ≤ n * k := by rw [← Nat.mul_succ]; exact Nat.mul_le_mul_left n hi'
    have e2 : n * j + n ≤ n * k := by rw [← Nat.mul_succ]; exact Nat.mul_le_mul_left n hj'
    have hkey : key w x (n * i) = key w x (n * j) := by
      simp only [key, slice, hw8]; exact hab
    have h5 := key_inj (by omega) (by omega) (by omega) hkey
    simpa only [slice, hw8] using h5
  rw [h1, h2]
  unfold dictBlocks
  rw [hlen]
  omega

/-! ## Runs with a small heap -/

theorem CEmits.at {α : Type} {f : M Comp α} {s s' : Comp} {a : α} (h : CEmits f s a [] s') (hw : s.w.Inv) :
    ∃ w', f s = .ok a (s'.setW w') ∧ w'.Inv := by
  obtain ⟨w', h1, h2, -⟩ := h.ok s.w hw (by simpa using hw.P_le)
  exact ⟨w', h1, h2⟩

theorem LEmits.at {α : Type} {f : M Comp α} {s s' : Comp} {a : α} {B : List Bool} (h : LEmits f s a B s') (hw : s.w.Inv) :
    (∃ w', f s = .ok a (s'.setW w') ∧ w'.Inv) ∨ ∃ er q, f s = .err er q := by
  by_cases hc : s.w.P + B.length ≤ 8 * s.w.cap
  · obtain ⟨w', h1, h2, -⟩ := h.ok s.w hw hc
    exact .inl ⟨w', h1, h2⟩
  · rcases h.full s.w hw (by omega) with ⟨q, h1, -⟩ | ⟨w', h1, h2, -⟩
    · exact .inr ⟨_, q, h1⟩
    · exact .inl ⟨w', h1, h2⟩

theorem core_setW {x pos T s} (h : Core x pos T s) (w : Writer) : Core x pos T (s.setW w) :=
  ⟨h.inp, h.ilen, h.pos, h.ht8, h.ht4, h.ht2, h.node8, h.node4, h.node2⟩

theorem loaded_setW {x pos s} (h : Loaded x pos s) (w : Writer) : Loaded x pos (s.setW w) :=
  ⟨h.d8, h.d40, h.d41, h.d20, h.d21, h.d22, h.d23⟩

/-- The run on the small heap (limit `l`) ends as the run without heap; `B` is a limit that suffices. -/
def Matches (L : List Nat) (B l : Nat) {α : Type} : Outcome Comp α → Outcome (Comp × Mem) α → Prop
  | .ok a p, o => ∃ m, o = .ok a (p, m) ∧ MInv L p (m.lim B) ∧ m.heap.limit = l
  | .err e p, o => ∃ m, o = .err e (p, m) ∧ MInv L p (m.lim B) ∧ m.heap.limit = l
  | .ub, o => o = .ub
  | .timeout, o => o = .timeout

theorem olim_ok {α : Type} {l : Nat} {o : Outcome (Comp × Mem) α} {a : α} {p : Comp} {M' : Mem}
    (h : olim l o = .ok a (p, M')) : ∃ m, o = .ok a (p, m) ∧ M' = m.lim l := by
  cases o <;> simp only [olim, Outcome.ok.injEq, Prod.mk.injEq, reduceCtorEq] at h
  obtain ⟨rfl, rfl, rfl⟩ := h
  exact ⟨_, rfl, rfl⟩

theorem olim_err {α : Type} {l : Nat} {o : Outcome (Comp × Mem) α} {e : Errno} {p : Comp} {M' : Mem}
    (h : olim l o = .err e (p, M')) : ∃ m, o = .err e (p, m) ∧ M' = m.lim l := by
  cases o <;> simp only [olim, Outcome.err.injEq, Prod.mk.injEq, reduceCtorEq] at h
  obtain ⟨rfl, rfl, rfl⟩ := h
  exact ⟨_, rfl, rfl⟩

theorem Matches.of {L : List Nat} {B : Nat} {α : Type} {x : M Comp α} {xH : M (Comp × Mem) α} (ha : Agn xH)
    (hs : Sim L x xH) {s : Comp} {m : Mem} (hm : MInv L s (m.lim B)) : Matches L B m.heap.limit (x s) (xH (s, m)) := by
  have h := hs _ _ hm
  have h0 := ha s m B
  have h1 := ha s m m.heap.limit
  rw [show m.lim m.heap.limit = m from rfl] at h1
  cases hx : x s with
  | ok a p =>
    rw [hx] at h
    obtain ⟨M', h2, h3⟩ := h
    rw [h0] at h2
    obtain ⟨m', h4, rfl⟩ := olim_ok h2
    refine ⟨m', h4, h3, ?_⟩
    rw [h4] at h1
    simp only [olim, Outcome.ok.injEq, Prod.mk.injEq, true_and] at h1
    rw [h1]; rfl
  | err a p =>
    rw [hx] at h
    obtain ⟨M', h2, h3⟩ := h
    rw [h0] at h2
    obtain ⟨m', h4, rfl⟩ := olim_err h2
    refine ⟨m', h4, h3, ?_⟩
    rw [h4] at h1
    simp only [olim, Outcome.err.injEq, Prod.mk.injEq, true_and] at h1
    rw [h1]; rfl
  | ub =>
    rw [hx] at h
    dsimp only at h
    rw [h0] at h
    show xH (s, m) = .ub
    cases h5 : xH (s, m) <;> rw [h5] at h <;> simp only [olim, reduceCtorEq] at h ⊢
  | timeout =>
    rw [hx] at h
    dsimp only at h
    rw [h0] at h
    show xH (s, m) = .timeout
    cases h5 : xH (s, m) <;> rw [h5] at h <;> simp only [olim, reduceCtorEq] at h ⊢

theorem Matches.bind {L : List Nat} {B l : Nat} {α β : Type} {x : M Comp α} {xH : M (Comp × Mem) α} {f : α → M Comp β}
    {fH : α → M (Comp × Mem) β} {s : Comp} {m : Mem} (hx : Matches L B l (x s) (xH (s, m)))
    (hf : ∀ a p m', x s = .ok a p → MInv L p (m'.lim B) → m'.heap.limit = l → Matches L B l (f a p) (fH a (p, m'))) :
    Matches L B l ((x >>= f) s) ((xH >>= fH) (s, m)) := by
  show Matches L B l (M.bind x f s) (M.bind xH fH (s, m))
  unfold M.bind
  cases h : x s with
  | ok a p =>
    rw [h] at hx
    obtain ⟨m', h1, h2, h3⟩ := hx
    rw [h1]
    exact hf a p m' h h2 h3
  | err e p =>
    rw [h] at hx
    obtain ⟨m', h1, h2, h3⟩ := hx
    rw [h1]
    exact ⟨m', rfl, h2, h3⟩
  | ub =>
    rw [h] at hx
    have hx : xH (s, m) = .ub := hx
    rw [hx]; rfl
  | timeout =>
    rw [h] at hx
    have hx : xH (s, m) = .timeout := hx
    rw [hx]; rfl

/-- The dictionaries after `t.1`, `t.2.1`, `t.2.2` pieces -/
structure RepK (T : Tab) (x : List Byte) (t : Nat × Nat × Nat) : Prop where
  d8 : T.d8.Rep (slotsK 64 8 256 x t.1)
  d4 : T.d4.Rep (slotsK 32 4 512 x t.2.1)
  d2 : T.d2.Rep (slotsK 16 2 256 x t.2.2)

theorem live_count {L : List Nat} {x : List Byte} {pos : Nat} {T : Tab} {s : Comp} {M' : Mem} {t : Nat × Nat × Nat}
    (hm : MInv L s M') (hc : Core x pos T s) (hr : RepK T x t) (h8 : 8 * t.1 ≤ x.length) (h4 : 4 * t.2.1 ≤ x.length)
    (h2 : 2 * t.2.2 ≤ x.length) : M'.heap.live.length = L.length + compBlocks x t := by
  have e8 := (show TInv 256 M'.t8 T.d8.ht T.d8.node by rw [← hc.ht8, ← hc.node8]; exact hm.i8).blocks (n := 8) (by omega)
    (by omega) (by omega) hr.d8 h8
  have e4 := (show TInv 512 M'.t4 T.d4.ht T.d4.node by rw [← hc.ht4, ← hc.node4]; exact hm.i4).blocks (n := 4) (by omega)
    (by omega) (by omega) hr.d4 h4
  have e2 := (show TInv 256 M'.t2 T.d2.ht T.d2.node by rw [← hc.ht2, ← hc.node2]; exact hm.i2).blocks (n := 2) (by omega)
    (by omega) (by omega) hr.d2 h2
  rw [hm.heap.perm.length_eq]
  simp only [List.length_cons, List.length_append, e8, e4, e2, compBlocks]
  omega

/-- Between insertions -/
structure Mid (L : List Nat) (B l : Nat) (x : List Byte) (pos : Nat) (T : Tab) (s : Comp) (m : Mem) : Prop where
  core : Core x pos T s
  loaded : Loaded x pos s
  winv : s.w.Inv
  minv : MInv L s (m.lim B)
  lim : m.heap.limit = l

theorem insert_step {L : List Nat} {B l : Nat} {x : List Byte} {pos : Nat} {T T' : Tab} {s s' : Comp} {m : Mem}
    {t : Nat × Nat × Nat} {xC : M Comp Unit} {xH : M (Comp × Mem) Unit} (h : Mid L B l x pos T s m) (hcap : Capped xH)
    (hsim : Sim L xC xH) (hem : CEmits xC s () [] s') (hc : Core x pos T' s') (hl : Loaded x pos s') (hr : RepK T' x t)
    (h8 : 8 * t.1 ≤ x.length) (h4 : 4 * t.2.1 ≤ x.length) (h2 : 2 * t.2.2 ≤ x.length) :
    ∃ s1 m1, xC s = .ok () s1 ∧ xH (s, m) = (if L.length + compBlocks x t ≤ l then .ok () (s1, m1) else .ub) ∧
      Mid L B l x pos T' s1 m1 := by
  obtain ⟨w, h1, hw⟩ := CEmits.at hem h.winv
  have hs := hsim _ _ h.minv
  rw [h1] at hs
  obtain ⟨M', h5, h6⟩ := hs
  obtain ⟨h7, h9⟩ := hcap _ _ _ _ _ h5
  have hcount := live_count h6 (core_setW hc w) hr h8 h4 h2
  refine ⟨_, M'.lim l, h1, ?_, core_setW hc w, loaded_setW hl w, hw, ?_, rfl⟩
  · rw [h9, hcount, h.lim]
  · have : (M'.lim l).lim B = M' := by
      show { M' with heap := { M'.heap with limit := B } } = M'
      rw [← h7]
    rw [this]
    exact h6

theorem chain_ub {xH : M (Comp × Mem) Unit} {fH : Unit → M (Comp × Mem) Unit} {s : Comp × Mem} (h : xH s = .ub) :
    (xH >>= fH) s = .ub := by
  show M.bind xH fH s = .ub
  unfold M.bind
  rw [h]

theorem chain_ok {σ α β : Type} {x : M σ α} {f : α → M σ β} {s s1 : σ} {a : α} (h : x s = .ok a s1) :
    (x >>= f) s = f a s1 := by
  show M.bind x f s = _
  unfold M.bind
  rw [h]

theorem update_peak {L : List Nat} {B l : Nat} {x : List Byte} {g : Nat} {T : Tab} {s : Comp} {m : Mem}
    (h : Mid L B l x (8 * g) T s m) (hr : RepK T x (g, 2 * g, 4 * g)) (hg : 8 * g + 8 ≤ x.length) :
    ∃ s1 m1, updateHashtables s = .ok () s1 ∧
      updateHashtablesH (s, m) = (if ∀ t ∈ insertions g, L.length + compBlocks x t ≤ l then .ok () (s1, m1) else .ub) ∧
      Mid L B l x (8 * g) (T.next x (8 * g)) s1 m1 ∧ RepK (T.next x (8 * g)) x (g + 1, 2 * g + 2, 4 * g + 4) := by
  have e8 : ((8 * g) >>> 3) % 2 ^ 8 = 8 * g / 8 % 256 := by rw [Nat.shiftRight_eq_div_pow]; rfl
  have e4 : ((8 * g) >>> 2) % 2 ^ 9 = 8 * g / 4 % 512 := by rw [Nat.shiftRight_eq_div_pow]; rfl
  have e2 : ((8 * g) >>> 1) % 2 ^ 8 = 8 * g / 2 % 256 := by rw [Nat.shiftRight_eq_div_pow]; rfl
  have k8 : T.d8.Rep (slotsK 64 8 256 x g) := hr.d8
  have k4 : T.d4.Rep (slotsK 32 4 512 x (2 * g)) := hr.d4
  have k2 : T.d2.Rep (slotsK 16 2 256 x (4 * g)) := hr.d2
  have r8 := k8.put (g % 256) (key 64 x (8 * g))
  rw [← slotsK_succ _ _ _ (by omega)] at r8
  have r4 := k4.put (2 * g % 512) (key 32 x (4 * (2 * g)))
  rw [← slotsK_succ _ _ _ (by omega)] at r4
  have r4' := r4.put ((2 * g + 1) % 512) (key 32 x (4 * (2 * g + 1)))
  rw [← slotsK_succ _ _ _ (by omega)] at r4'
  have r2 := k2.put (4 * g % 256) (key 16 x (2 * (4 * g)))
  rw [← slotsK_succ _ _ _ (by omega)] at r2
  have r2b := r2.put ((4 * g + 1) % 256) (key 16 x (2 * (4 * g + 1)))
  rw [← slotsK_succ _ _ _ (by omega)] at r2b
  have r2c := r2b.put ((4 * g + 1 + 1) % 256) (key 16 x (2 * (4 * g + 1 + 1)))
  rw [← slotsK_succ _ _ _ (by omega)] at r2c
  have r2d := r2c.put ((4 * g + 1 + 1 + 1) % 256) (key 16 x (2 * (4 * g + 1 + 1 + 1)))
  rw [← slotsK_succ _ _ _ (by omega)] at r2d
  -- the seven insertions
  obtain ⟨c1, a1, b1, l1⟩ := replaceHash8_core h.core h.loaded (8 * g / 8 % 256) 0 (by omega) (by omega) h.loaded.d8
  rw [show 8 * g / 8 % 256 + 0 = g % 256 by omega] at b1
  obtain ⟨s1, m1, p1, q1, h1⟩ := insert_step (t := (g + 1, 2 * g, 4 * g)) h (capped_replaceHash8 _ _) (sim_replaceHash8 _ _)
    a1 b1 l1 ⟨r8, k4, k2⟩ (by dsimp only; omega) (by dsimp only; omega) (by dsimp only; omega)
  obtain ⟨c2, a2, b2, l2⟩ := replaceHash4_core h1.core h1.loaded (8 * g / 4 % 512) 0 (by omega) (by omega) h1.loaded.d40
  rw [show 8 * g / 4 % 512 + 0 = 2 * g % 512 by omega, show 8 * g = 4 * (2 * g) by omega] at b2
  rw [show 4 * (2 * g) = 8 * g by omega] at b2
  obtain ⟨s2, m2, p2, q2, h2⟩ := insert_step (t := (g + 1, 2 * g + 1, 4 * g)) h1 (capped_replaceHash4 _ _) (sim_replaceHash4 _ _)
    a2 b2 l2 ⟨r8, by rw [show 4 * (2 * g) = 8 * g by omega] at r4; exact r4, k2⟩ (by dsimp only; omega) (by dsimp only; omega)
    (by dsimp only; omega)
  obtain ⟨c3, a3, b3, l3⟩ := replaceHash4_core h2.core h2.loaded (8 * g / 4 % 512) 1 (by omega) (by omega) h2.loaded.d41
  rw [show 8 * g / 4 % 512 + 1 = (2 * g + 1) % 512 by omega] at b3
  obtain ⟨s3, m3, p3, q3, h3⟩ := insert_step (t := (g + 1, 2 * g + 2, 4 * g)) h2 (capped_replaceHash4 _ _) (sim_replaceHash4 _ _)
    a3 b3 l3 ⟨r8, by rw [show 4 * (2 * g) = 8 * g by omega, show 4 * (2 * g + 1) = 8 * g + 4 by omega] at r4'; exact r4', k2⟩
    (by dsimp only; omega) (by dsimp only; omega) (by dsimp only; omega)
  obtain ⟨c4, a4, b4, l4⟩ := replaceHash2_core h3.core h3.loaded (8 * g / 2 % 256) 0 (by omega) (by omega) h3.loaded.d20
  rw [show 8 * g / 2 % 256 + 0 = 4 * g % 256 by omega] at b4
  rw [show 4 * (2 * g) = 8 * g by omega, show 4 * (2 * g + 1) = 8 * g + 4 by omega] at r4'
  obtain ⟨s4, m4, p4, q4, h4⟩ := insert_step (t := (g + 1, 2 * g + 2, 4 * g + 1)) h3 (capped_replaceHash2 _ _)
    (sim_replaceHash2 _ _) a4 b4 l4 ⟨r8, r4', by rw [show 2 * (4 * g) = 8 * g by omega] at r2; exact r2⟩
    (by dsimp only; omega) (by dsimp only; omega) (by dsimp only; omega)
  obtain ⟨c5, a5, b5, l5⟩ := replaceHash2_core h4.core h4.loaded (8 * g / 2 % 256) 1 (by omega) (by omega) h4.loaded.d21
  rw [show 8 * g / 2 % 256 + 1 = (4 * g + 1) % 256 by omega] at b5
  obtain ⟨s5, m5, p5, q5, h5⟩ := insert_step (t := (g + 1, 2 * g + 2, 4 * g + 2)) h4 (capped_replaceHash2 _ _)
    (sim_replaceHash2 _ _) a5 b5 l5
    ⟨r8, r4', by rw [show 2 * (4 * g) = 8 * g by omega, show 2 * (4 * g + 1) = 8 * g + 2 by omega] at r2b; exact r2b⟩
    (by dsimp only; omega) (by dsimp only; omega) (by dsimp only; omega)
  obtain ⟨c6, a6, b6, l6⟩ := replaceHash2_core h5.core h5.loaded (8 * g / 2 % 256) 2 (by omega) (by omega) h5.loaded.d22
  rw [show 8 * g / 2 % 256 + 2 = (4 * g + 1 + 1) % 256 by omega] at b6
  obtain ⟨s6, m6, p6, q6, h6⟩ := insert_step (t := (g + 1, 2 * g + 2, 4 * g + 3)) h5 (capped_replaceHash2 _ _)
    (sim_replaceHash2 _ _) a6 b6 l6
    ⟨r8, r4', by rw [show 2 * (4 * g) = 8 * g by omega, show 2 * (4 * g + 1) = 8 * g + 2 by omega,
      show 2 * (4 * g + 1 + 1) = 8 * g + 4 by omega] at r2c; exact r2c⟩
    (by dsimp only; omega) (by dsimp only; omega) (by dsimp only; omega)
  obtain ⟨c7, a7, b7, l7⟩ := replaceHash2_core h6.core h6.loaded (8 * g / 2 % 256) 3 (by omega) (by omega) h6.loaded.d23
  rw [show 8 * g / 2 % 256 + 3 = (4 * g + 1 + 1 + 1) % 256 by omega] at b7
  rw [show 2 * (4 * g) = 8 * g by omega, show 2 * (4 * g + 1) = 8 * g + 2 by omega,
      show 2 * (4 * g + 1 + 1) = 8 * g + 4 by omega, show 2 * (4 * g + 1 + 1 + 1) = 8 * g + 6 by omega] at r2d
  obtain ⟨s7, m7, p7, q7, h7⟩ := insert_step (t := (g + 1, 2 * g + 2, 4 * g + 4)) h6 (capped_replaceHash2 _ _)
    (sim_replaceHash2 _ _) a7 b7 l7 ⟨r8, r4', r2d⟩ (by dsimp only; omega) (by dsimp only; omega) (by dsimp only; omega)
  have hT : T.next x (8 * g) = { T with
      d8 := T.d8.put (g % 256) (key 64 x (8 * g))
      d4 := (T.d4.put (2 * g % 512) (key 32 x (8 * g))).put ((2 * g + 1) % 512) (key 32 x (8 * g + 4))
      d2 := (((T.d2.put (4 * g % 256) (key 16 x (8 * g))).put ((4 * g + 1) % 256) (key 16 x (8 * g + 2))).put
        ((4 * g + 1 + 1) % 256) (key 16 x (8 * g + 4))).put ((4 * g + 1 + 1 + 1) % 256) (key 16 x (8 * g + 6)) } := by
    unfold Tab.next
    rw [show 8 * g / 8 % 256 = g % 256 by omega, show 8 * g / 4 % 512 = 2 * g % 512 by omega,
      show 8 * g / 2 % 256 = 4 * g % 256 by omega, show 2 * g % 512 + 1 = (2 * g + 1) % 512 by omega,
      show 4 * g % 256 + 1 = (4 * g + 1) % 256 by omega, show 4 * g % 256 + 2 = (4 * g + 1 + 1) % 256 by omega,
      show 4 * g % 256 + 3 = (4 * g + 1 + 1 + 1) % 256 by omega]
  refine ⟨s7, m7, ?_, ?_, by rw [hT]; exact h7, by rw [hT]; exact ⟨r8, r4', r2d⟩⟩
  · unfold updateHashtables
    rw [chain_ok (x := M.get) (a := s) (s1 := s) rfl]
    simp only [h.core.pos, e8, e4, e2]
    rw [chain_ok p1, chain_ok p2, chain_ok p3, chain_ok p4, chain_ok p5, chain_ok p6, p7]
  · unfold updateHashtablesH
    rw [chain_ok (x := onComp M.get) (a := s) (s1 := (s, m)) rfl]
    simp only [h.core.pos, e8, e4, e2]
    by_cases f1 : L.length + compBlocks x (g + 1, 2 * g, 4 * g) ≤ l
    swap
    · rw [if_neg fun hh => f1 (hh _ (by simp [insertions]))]
      rw [if_neg f1] at q1
      exact chain_ub q1
    rw [if_pos f1] at q1
    rw [chain_ok q1]
    by_cases f2 : L.length + compBlocks x (g + 1, 2 * g + 1, 4 * g) ≤ l
    swap
    · rw [if_neg fun hh => f2 (hh _ (by simp [insertions]))]
      rw [if_neg f2] at q2
      exact chain_ub q2
    rw [if_pos f2] at q2
    rw [chain_ok q2]
    by_cases f3 : L.length + compBlocks x (g + 1, 2 * g + 2, 4 * g) ≤ l
    swap
    · rw [if_neg fun hh => f3 (hh _ (by simp [insertions]))]
      rw [if_neg f3] at q3
      exact chain_ub q3
    rw [if_pos f3] at q3
    rw [chain_ok q3]
    by_cases f4 : L.length + compBlocks x (g + 1, 2 * g + 2, 4 * g + 1) ≤ l
    swap
    · rw [if_neg fun hh => f4 (hh _ (by simp [insertions]))]
      rw [if_neg f4] at q4
      exact chain_ub q4
    rw [if_pos f4] at q4
    rw [chain_ok q4]
    by_cases f5 : L.length + compBlocks x (g + 1, 2 * g + 2, 4 * g + 2) ≤ l
    swap
    · rw [if_neg fun hh => f5 (hh _ (by simp [insertions]))]
      rw [if_neg f5] at q5
      exact chain_ub q5
    rw [if_pos f5] at q5
    rw [chain_ok q5]
    by_cases f6 : L.length + compBlocks x (g + 1, 2 * g + 2, 4 * g + 3) ≤ l
    swap
    · rw [if_neg fun hh => f6 (hh _ (by simp [insertions]))]
      rw [if_neg f6] at q6
      exact chain_ub q6
    rw [if_pos f6] at q6
    rw [chain_ok q6, q7]
    by_cases f7 : L.length + compBlocks x (g + 1, 2 * g + 2, 4 * g + 4) ≤ l
    · rw [if_pos f7, if_pos]
      intro t ht
      simp only [insertions, List.mem_cons, List.not_mem_nil, or_false] at ht
      rcases ht with rfl | rfl | rfl | rfl | rfl | rfl | rfl
      exacts [f1, f2, f3, f4, f5, f6, f7]
    · rw [if_neg f7, if_neg fun hh => f7 (hh _ (by simp [insertions]))]

/-- There is enough room for the groups from `pos` on. -/
def Fits (l : Nat) (L : List Nat) (x : List Byte) (pos : Nat) : Prop :=
  ∀ g, pos ≤ 8 * g → 8 * g + 8 ≤ x.length → ∀ t ∈ insertions g, L.length + compBlocks x t ≤ l

theorem loop_peak (e : Endian) (x : List Byte) {L : List Nat} {B l : Nat} (k : Nat) {g : Nat} {T : Tab} {s : Comp} {m : Mem}
    {last : BitVec 64} {lastO : Option (List Byte)} {rc : Nat} (hT : T.Rep x (8 * g)) (hr : RepK T x (g, 2 * g, 4 * g))
    (hc : Core x (8 * g) T s) (hpos : 8 * g + 8 * k ≤ x.length) (hend : x.length < 8 * g + 8 * k + 8)
    (hlast : 8 * g + 8 ≤ x.length → ∀ v, load64 e x (8 * g) = some v → (v = last ↔ some (slice x (8 * g) 8) = lastO))
    (hrc : rc ≤ 63) (hw : s.w.Inv) (hm : MInv L s (m.lim B)) (hl : m.heap.limit = l) :
    (Fits l L x (8 * g) → Matches L B l (compLoop e (k + 1) last rc s) (compLoopH e (k + 1) last rc (s, m))) ∧
    (∀ r s', compLoop e (k + 1) last rc s = .ok r s' → ¬ Fits l L x (8 * g) → compLoopH e (k + 1) last rc (s, m) = .ub) := by
  induction k generalizing g T s m last lastO rc with
  | zero =>
    have hi : ¬ s.ilen > 7 := by rw [hc.ilen]; omega
    have e1 : compLoop e (0 + 1) last rc s = .ok rc s := by
      unfold compLoop
      rw [chain_ok (x := M.get) (a := s) (s1 := s) rfl, if_neg hi]
      rfl
    have e2 : compLoopH e (0 + 1) last rc (s, m) = .ok rc (s, m) := by
      unfold compLoopH
      rw [chain_ok (x := onComp M.get) (a := s) (s1 := (s, m)) rfl, if_neg hi]
      rfl
    rw [e1, e2]
    refine ⟨fun _ => ⟨m, rfl, hm, hl⟩, fun _ _ _ hf => ?_⟩
    exact absurd (fun g' h1 h2 => by omega) hf
  | succ k ih =>
    have hi : s.ilen > 7 := by rw [hc.ilen]; omega
    obtain ⟨v, hv, hkv⟩ := load64_key e (x := x) (o := 8 * g) (by omega)
    obtain ⟨s1, hem1, hc1, hl1⟩ := getNextData_emits e hc (by omega)
    obtain ⟨w1, a1, hw1⟩ := CEmits.at hem1 hw
    have hc1 := core_setW hc1 w1
    have hl1 := loaded_setW hl1 w1
    have hz : v = 0#64 ↔ slice x (8 * g) 8 = List.replicate 8 0#8 := by
      rw [← key_zero (x := x) (o := 8 * g) (by omega), ← hkv]
      constructor
      · intro h; rw [h, swapBe64_zero]
      · intro h; apply swapBe64_inj (e := e); rw [h, swapBe64_zero]
    obtain ⟨s2, hem2, hc2, hl2, hrc2⟩ := compStep_emits e hT (by omega) hc1 hl1 (by omega) hz
      (hlast (by omega) v hv) hrc
    have m1 := Matches.of (Agn.onComp (getNextData e)) (Sim.lift (keeps_getNextData e)) hm
    rw [a1] at m1
    obtain ⟨m1, b1, i1, j1⟩ := m1
    have m2 := Matches.of (agn_compStep e v last rc) (sim_compStep e v last rc) i1
    rw [j1, hl] at m2
    -- both loops up to `compStep`
    have eC : compLoop e (k + 1 + 1) last rc s = (compStep e v last rc >>= fun rc => updateHashtables >>= fun _ =>
        M.modify (fun p => { p with pos := p.pos + 8, ilen := p.ilen - 8 }) >>= fun _ => compLoop e (k + 1) v rc)
        (s1.setW w1) := by
      conv_lhs => unfold compLoop
      rw [chain_ok (x := M.get) (a := s) (s1 := s) rfl, if_pos hi]
      have : (M.access fun _ => load64 e s.inp s.pos : M Comp _) s = .ok v s := by
        unfold M.access; simp only [hc.inp, hc.pos, hv]
      rw [chain_ok this, chain_ok a1]
    have eH : compLoopH e (k + 1 + 1) last rc (s, m) = (compStepH e v last rc >>= fun rc => updateHashtablesH >>= fun _ =>
        onComp (M.modify (fun p => { p with pos := p.pos + 8, ilen := p.ilen - 8 })) >>= fun _ => compLoopH e (k + 1) v rc)
        (s1.setW w1, m1) := by
      conv_lhs => unfold compLoopH
      rw [chain_ok (x := onComp M.get) (a := s) (s1 := (s, m)) rfl, if_pos hi]
      have : onComp (M.access fun _ => load64 e s.inp s.pos) (s, m) = .ok v (s, m) := by
        unfold onComp M.access; simp only [hc.inp, hc.pos, hv]
      rw [chain_ok this, chain_ok b1]
    rw [eC, eH]
    rcases LEmits.at hem2 hw1 with ⟨w2, a2, hw2⟩ | ⟨er, q, a2⟩
    · rw [a2] at m2
      obtain ⟨m2, b2, i2, j2⟩ := m2
      rw [chain_ok a2, chain_ok b2]
      obtain ⟨s3, m3, a3, b3, h3, r3⟩ := update_peak (l := l) ⟨core_setW hc2 w2, loaded_setW hl2 w2, hw2, i2, j2⟩ hr (by omega)
      rw [chain_ok a3]
      have hc4 : Core x (8 * (g + 1)) (T.next x (8 * g)) { s3 with pos := s3.pos + 8, ilen := s3.ilen - 8 } :=
        ⟨h3.core.inp, by show s3.ilen - 8 = _; rw [h3.core.ilen]; omega,
          by show s3.pos + 8 = _; rw [h3.core.pos]; omega,
          h3.core.ht8, h3.core.ht4, h3.core.ht2, h3.core.node8, h3.core.node4, h3.core.node2⟩
      have hm4 : MInv L { s3 with pos := s3.pos + 8, ilen := s3.ilen - 8 } (m3.lim B) := h3.minv.same ⟨rfl, rfl, rfl, rfl, rfl, rfl⟩
      have hih := ih (g := g + 1) (T := T.next x (8 * g)) (s := { s3 with pos := s3.pos + 8, ilen := s3.ilen - 8 }) (m := m3)
        (last := v) (lastO := some (slice x (8 * g) 8)) (rc := (refStep T x (8 * g) lastO rc).2)
        (by rw [show 8 * (g + 1) = 8 * g + 8 by omega]; exact hT.next (by omega))
        (by rw [show 2 * (g + 1) = 2 * g + 2 by omega, show 4 * (g + 1) = 4 * g + 4 by omega]; exact r3)
        hc4 (by omega) (by omega)
        (fun h u hu => by
          rw [show 8 * (g + 1) = 8 * g + 8 by omega] at hu ⊢
          rw [load64_raw e (by omega) (by omega) hu hv, Option.some.injEq]) hrc2 h3.winv hm4 h3.lim
      have hsplit : Fits l L x (8 * g) ↔
          (∀ t ∈ insertions g, L.length + compBlocks x t ≤ l) ∧ Fits l L x (8 * (g + 1)) := by
        constructor
        · exact fun h => ⟨h g (by omega) (by omega), fun g' h1 h2 => h g' (by omega) h2⟩
        · rintro ⟨ha, hb⟩ g' h1 h2
          by_cases hg : g' = g
          · subst hg; exact ha
          · exact hb g' (by omega) h2
      by_cases hf : ∀ t ∈ insertions g, L.length + compBlocks x t ≤ l
      · rw [if_pos hf] at b3
        rw [chain_ok b3]
        rw [hsplit]
        exact ⟨fun h => hih.1 h.2, fun r s' h1 h2 => hih.2 r s' h1 fun h => h2 ⟨hf, h⟩⟩
      · rw [if_neg hf] at b3
        refine ⟨fun h => absurd (hsplit.1 h).1 hf, fun r s' h1 h2 => ?_⟩
        show M.bind updateHashtablesH _ _ = .ub
        unfold M.bind
        rw [b3]
    · have e1 : ∀ {β : Type} (f : Nat → M Comp β), (compStep e v last rc >>= f) (s1.setW w1) = .err er q := by
        intro β f
        show M.bind _ _ _ = _
        unfold M.bind
        rw [a2]
      refine ⟨fun _ => ?_, fun r s' h1 _ => by rw [e1] at h1; cases h1⟩
      rw [a2] at m2
      refine Matches.bind (by rw [a2]; exact m2) ?_
      intro a p m' h
      rw [a2] at h
      cases h

/-! ## The whole call -/

theorem freeEls_lim (es : List (Nat × Nat)) (hp : Heap) (l : Nat) : freeEls es (hp.lim l) = (freeEls es hp).map (Heap.lim · l) := by
  induction es generalizing hp with
  | nil => rfl
  | cons e es ih =>
    unfold freeEls
    rw [free_lim]
    cases hp.free e.1 with
    | none => rfl
    | some hp1 => exact ih hp1

theorem destroyTab_lim {w : Nat} (t : List (HNode w)) (hp : Heap) (l : Nat) :
    destroyTab t (hp.lim l) = (destroyTab t hp).map (Heap.lim · l) := by
  induction t generalizing hp with
  | nil => rfl
  | cons h t ih =>
    unfold destroyTab
    have h0 : okTab (hp.lim l) (h :: t) = okTab hp (h :: t) := rfl
    rw [h0]
    split
    · rw [freeEls_lim]
      cases freeEls h.els hp with
      | none => rfl
      | some hp1 =>
        simp only [Option.map_some]
        rw [free_lim]
        cases hp1.free h.cell with
        | none => rfl
        | some hp2 => exact ih hp2
    · rfl

theorem cleanupH_lim (m : Mem) (l : Nat) : cleanupH (m.lim l) = (cleanupH m).map (Heap.lim · l) := by
  unfold cleanupH
  show (match destroyTab m.t8 (m.heap.lim l) with
    | none => none
    | some hp => _) = _
  rw [destroyTab_lim]
  cases destroyTab m.t8 m.heap with
  | none => rfl
  | some hp =>
    simp only [Option.map_some]
    show (match destroyTab m.t4 (hp.lim l) with
      | none => none
      | some hp => _) = _
    rw [destroyTab_lim]
    cases destroyTab m.t4 hp with
    | none => rfl
    | some hp =>
      simp only [Option.map_some]
      show (match destroyTab m.t2 (hp.lim l) with
        | none => none
        | some hp => _) = _
      rw [destroyTab_lim]
      cases destroyTab m.t2 hp with
      | none => rfl
      | some hp => exact free_lim _ _ _

theorem Matches.lift {L : List Nat} {B l : Nat} {α : Type} {x : M Comp α} (hk : Keeps x) {s : Comp} {m : Mem}
    (hm : MInv L s (m.lim B)) (hl : m.heap.limit = l) : Matches L B l (x s) (onComp x (s, m)) := by
  have := Matches.of (Agn.onComp x) (Sim.lift hk) hm
  rwa [hl] at this

theorem Matches.pure' {L : List Nat} {B l : Nat} {α : Type} {a : α} {s : Comp} {m : Mem}
    (hm : MInv L s (m.lim B)) (hl : m.heap.limit = l) :
    Matches L B l ((Pure.pure a : M Comp α) s) ((Pure.pure a : M (Comp × Mem) α) (s, m)) := ⟨m, rfl, hm, hl⟩

/-- What follows the main loop -/
def tailC (e : Endian) (addr : Nat) (inp : List Byte) (total : Nat) : M Comp Nat := do
  let p ← M.get
  if p.ilen > 0 then do
    addShortData e p.ilen
    M.modify fun p => { p with pos := p.pos + p.ilen, ilen := 0 }
  else pure ()
  liftW (addBits e 0x1E#64 5)
  let crc ← M.access fun _ => crc32be e addr 0#32 inp inp.length
  liftW (addBits e (crc.setWidth 64) 32)
  liftW (compPad total)
  let p ← M.get
  if total - p.w.olen > 0xffffffff then M.fail .ENOSPC
  else pure (total - p.w.olen)

def tailH (e : Endian) (addr : Nat) (inp : List Byte) (total : Nat) : M (Comp × Mem) Nat := do
  let p ← onComp M.get
  if p.ilen > 0 then do
    onComp (addShortData e p.ilen)
    onComp (M.modify fun p => { p with pos := p.pos + p.ilen, ilen := 0 })
  else pure ()
  onComp (liftW (addBits e 0x1E#64 5))
  let crc ← onComp (M.access fun _ => crc32be e addr 0#32 inp inp.length)
  onComp (liftW (addBits e (crc.setWidth 64) 32))
  onComp (liftW (compPad total))
  let p ← onComp M.get
  if total - p.w.olen > 0xffffffff then onComp (M.fail .ENOSPC)
  else pure (total - p.w.olen)

theorem agn_tail (e : Endian) (addr : Nat) (inp : List Byte) (total : Nat) : Agn (tailH e addr inp total) := by
  unfold tailH
  dsimp only
  repeat' first
    | exact .pure _
    | exact .onComp _
    | refine Agn.ite ?_ ?_
    | refine Agn.bind ?_ fun _ => ?_

theorem sim_tail (L : List Nat) (e : Endian) (addr : Nat) (inp : List Byte) (total : Nat) :
    Sim L (tailC e addr inp total) (tailH e addr inp total) := by
  unfold tailC tailH
  dsimp only
  repeat' first
    | exact .pure _
    | exact .lift .get
    | exact .lift (.fail _)
    | exact .lift (.access _)
    | exact .lift (.liftW _)
    | exact .lift (keeps_addShortData _ _)
    | exact .lift (.modify fun _ => ⟨rfl, rfl, rfl, rfl, rfl, rfl⟩)
    | refine Sim.ite ?_ ?_
    | refine Sim.bind ?_ fun _ => ?_

theorem compBody_short (e : Endian) (addr fuel : Nat) (inp : List Byte) (total : Nat) (h : inp.length < 8) :
    compBody e addr fuel inp total = tailC e addr inp total ∧ compBodyH e addr fuel inp total = tailH e addr inp total := by
  constructor
  · unfold compBody
    rw [if_pos h]
    rfl
  · unfold compBodyH
    rw [if_pos h]
    rfl

theorem compBody_long (e : Endian) (addr fuel : Nat) (inp : List Byte) (total : Nat) (h : ¬ inp.length < 8) :
    compBody e addr fuel inp total = (M.access (fun p => load64 e p.inp p.pos) >>= fun first =>
      compLoop e fuel (~~~ first) 0 >>= fun rc => if rc ≠ 0 then addRepeat e rc >>= fun _ => tailC e addr inp total
        else tailC e addr inp total) ∧
    compBodyH e addr fuel inp total = (onComp (M.access (fun p => load64 e p.inp p.pos)) >>= fun first =>
      compLoopH e fuel (~~~ first) 0 >>= fun rc => if rc ≠ 0 then onComp (addRepeat e rc) >>= fun _ => tailH e addr inp total
        else tailH e addr inp total) := by
  constructor
  · unfold compBody
    rw [if_neg h]
    rfl
  · unfold compBodyH
    rw [if_neg h]
    rfl

theorem bind_inv {σ α β : Type} {x : M σ α} {f : α → M σ β} {s s' : σ} {b : β} (h : (x >>= f) s = .ok b s') :
    ∃ a s1, x s = .ok a s1 ∧ f a s1 = .ok b s' := by
  have h : M.bind x f s = .ok b s' := h
  unfold M.bind at h
  cases hx : x s with
  | ok a s1 => rw [hx] at h; exact ⟨a, s1, rfl, h⟩
  | err e s1 => rw [hx] at h; cases h
  | ub => rw [hx] at h; cases h
  | timeout => rw [hx] at h; cases h

theorem body_peak (e : Endian) (addr : Nat) (x : List Byte) (total : Nat) {L : List Nat} {B l : Nat} {s : Comp} {m : Mem}
    (hc : Core x 0 .init s) (hw : s.w.Inv) (hm : MInv L s (m.lim B)) (hl : m.heap.limit = l) :
    (Fits l L x 0 → Matches L B l (compBody e addr (x.length / 8 + 1) x total s)
      (compBodyH e addr (x.length / 8 + 1) x total (s, m))) ∧
    (∀ r s', compBody e addr (x.length / 8 + 1) x total s = .ok r s' → ¬ Fits l L x 0 →
      compBodyH e addr (x.length / 8 + 1) x total (s, m) = .ub) := by
  have htail : ∀ (p : Comp) (m' : Mem), MInv L p (m'.lim B) → m'.heap.limit = l →
      Matches L B l (tailC e addr x total p) (tailH e addr x total (p, m')) := by
    intro p m' h1 h2
    have := Matches.of (agn_tail e addr x total) (sim_tail L e addr x total) h1
    rwa [h2] at this
  by_cases h : x.length < 8
  · obtain ⟨e1, e2⟩ := compBody_short e addr (x.length / 8 + 1) x total h
    rw [e1, e2]
    refine ⟨fun _ => htail _ _ hm hl, fun _ _ _ hf => ?_⟩
    exact absurd (fun g' h1 h2 => by omega) hf
  · obtain ⟨e1, e2⟩ := compBody_long e addr (x.length / 8 + 1) x total h
    rw [e1, e2]
    obtain ⟨v, hv, -⟩ := load64_key e (x := x) (o := 0) (by omega)
    have q1 : (M.access (fun p : Comp => load64 e p.inp p.pos)) s = .ok v s := by
      unfold M.access; simp only [hc.inp, hc.pos, hv]
    have q2 : onComp (M.access (fun p : Comp => load64 e p.inp p.pos)) (s, m) = .ok v (s, m) := by
      unfold onComp; rw [q1]
    rw [chain_ok q1, chain_ok q2]
    have hloop := loop_peak e x (L := L) (B := B) (l := l) (x.length / 8) (g := 0) (T := .init) (s := s) (m := m) (last := ~~~ v)
      (lastO := none) (rc := 0) (.init x)
      ⟨by show (Dict.init 64).Rep _; rw [slotsK_zero]; exact .init _, by show (Dict.init 32).Rep _; rw [Nat.mul_zero, slotsK_zero]; exact .init _,
        by show (Dict.init 16).Rep _; rw [Nat.mul_zero, slotsK_zero]; exact .init _⟩ hc (by omega) (by omega)
      (fun _ u hu => by
        have hu : load64 e x 0 = some u := hu
        rw [hv] at hu
        obtain rfl := Option.some.inj hu
        constructor
        · intro h
          have := congrArg (fun t : BitVec 64 => t.getLsbD 0) h
          simp at this
        · intro h; cases h) (by omega) hw hm hl
    rw [Nat.mul_zero] at hloop
    refine ⟨fun hf => ?_, fun r s' h1 hf => ?_⟩
    · refine Matches.bind (hloop.1 hf) ?_
      intro rc p m' _ h2 h3
      split
      · exact Matches.bind (Matches.lift (keeps_addRepeat e rc) h2 h3) fun _ p' m'' _ h4 h5 => htail p' m'' h4 h5
      · exact htail p m' h2 h3
    · obtain ⟨a, s1, h2, -⟩ := bind_inv h1
      have h3 := hloop.2 _ _ h2 hf
      show M.bind (compLoopH e (x.length / 8 + 1) (~~~ v) 0) _ _ = .ub
      unfold M.bind
      rw [h3]

theorem fits_iff (l : Nat) (L : List Nat) (x : List Byte) (h0 : L.length + 1 ≤ l) :
    Fits l L x 0 ↔ L.length + peakBlocks x ≤ l := by
  have key : ∀ (ts : List (Nat × Nat × Nat)), (∀ t ∈ ts, L.length + compBlocks x t ≤ l) ↔
      L.length + (ts.map (compBlocks x)).foldr max 1 ≤ l := by
    intro ts
    induction ts with
    | nil => simpa using h0
    | cons t ts ih =>
      rw [List.map_cons, List.foldr_cons]
      simp only [List.mem_cons, forall_eq_or_imp]
      rw [ih]
      omega
  unfold peakBlocks
  rw [← key]
  unfold Fits
  constructor
  · intro h t ht
    obtain ⟨g, hg, ht⟩ := List.mem_flatMap.1 ht
    have := List.mem_range.1 hg
    exact h g (by omega) (by omega) t ht
  · intro h g _ hg t ht
    exact h t (List.mem_flatMap.2 ⟨g, List.mem_range.2 (by omega), ht⟩)

/-- A call of the compressor with a heap of any size -/
theorem sw842CompressH_peak (e : Endian) (addr : Nat) (j : CompJunk) (x buf : List Byte) (hp : Heap)
    (hn : hp.live.Nodup) (hf : ∀ c ∈ hp.live, c < hp.next) :
    (hp.live.length + peakBlocks x ≤ hp.limit →
      match compBody e addr (x.length / 8 + 1) x buf.length (compInit j x buf) with
      | .ok n p => ∃ hp', sw842CompressH e addr j x buf hp = some (.ret none n p.w.buf, hp') ∧ hp'.live.Perm hp.live
      | .err er p => ∃ hp', sw842CompressH e addr j x buf hp = some (.ret (some er) 0 p.w.buf, hp') ∧ hp'.live.Perm hp.live
      | .ub => True
      | .timeout => True) ∧
    (∀ n p, compBody e addr (x.length / 8 + 1) x buf.length (compInit j x buf) = .ok n p →
      ¬ hp.live.length + peakBlocks x ≤ hp.limit → sw842CompressH e addr j x buf hp = none) := by
  have hpk : 1 ≤ peakBlocks x := by
    unfold peakBlocks
    generalize ((List.range (x.length / 8)).flatMap insertions).map (compBlocks x) = ts
    induction ts with
    | nil => exact Nat.le_refl _
    | cons t ts ih => rw [List.foldr_cons]; omega
  by_cases h0 : hp.live.length < hp.limit
  · have hmal : hp.malloc = some (hp.next, { hp with next := hp.next + 1, live := hp.next :: hp.live }) := by
      unfold Heap.malloc
      rw [if_pos h0]
    have hi : MInv hp.live (compInit j x buf)
        ((⟨{ hp with next := hp.next + 1, live := hp.next :: hp.live }, hp.next, [], [], []⟩ : Mem).lim
          (hp.live.length + 2049)) := by
      refine ⟨TInv.init _, TInv.init _, TInv.init _, ⟨List.Perm.refl _, ?_, ?_⟩, Nat.le_refl _⟩
      · exact List.nodup_cons.2 ⟨fun h => Nat.lt_irrefl _ (hf _ h), hn⟩
      · intro c hc
        rcases List.mem_cons.1 hc with rfl | hc
        · exact Nat.lt_succ_self _
        · exact Nat.lt_succ_of_lt (hf c hc)
    have hw : (compInit j x buf).w.Inv := ⟨by simp [compInit], by simp [compInit], by simp [compInit]⟩
    obtain ⟨hA, hB⟩ := body_peak e addr x buf.length (compInit_core j x buf) hw hi rfl
    rw [fits_iff _ _ _ h0] at hA hB
    have hclean : ∀ {p : Comp} {m : Mem}, MInv hp.live p (m.lim (hp.live.length + 2049)) →
        ∃ hp', cleanupH m = some hp' ∧ hp'.live.Perm hp.live := by
      intro p m h
      obtain ⟨hp', h1, h2⟩ := h.cleanup
      rw [cleanupH_lim] at h1
      obtain ⟨hp2, h3, h4⟩ := Option.map_eq_some_iff.1 h1
      refine ⟨hp2, h3, ?_⟩
      rw [← h4] at h2
      exact h2.perm
    refine ⟨fun h => ?_, fun n p h1 h2 => ?_⟩
    · have hA := hA h
      unfold sw842CompressH
      simp only [hmal]
      cases hr : compBody e addr (x.length / 8 + 1) x buf.length (compInit j x buf) with
      | ok n p =>
        rw [hr] at hA
        obtain ⟨m, h1, h2, -⟩ := hA
        obtain ⟨hp', h3, h4⟩ := hclean h2
        exact ⟨hp', by simp only [h1, h3, Option.map_some], h4⟩
      | err er p =>
        rw [hr] at hA
        obtain ⟨m, h1, h2, -⟩ := hA
        obtain ⟨hp', h3, h4⟩ := hclean h2
        exact ⟨hp', by simp only [h1, h3, Option.map_some], h4⟩
      | ub => trivial
      | timeout => trivial
    · have h3 := hB n p h1 h2
      unfold sw842CompressH
      simp only [hmal, h3]
  · refine ⟨fun h => by omega, fun n p h1 h2 => ?_⟩
    unfold sw842CompressH Heap.malloc
    rw [if_neg h0]

end Lib842.SwHeap
