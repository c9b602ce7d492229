import Verif.Model.PgInterleave
import Verif.Proofs.PgasusMain
import Verif.Proofs.OmpInterleave
/-!
# Lemmas on the NUMA samples with interleaved threads
-/

namespace Lib842
namespace PgI

/-- Number of threads of node `k` -/
abbrev T (ts : List Nat) (k : Nat) : Nat := ts.getD k 0

def Busy : PgPc → Prop
  | .call => True
  | .inside _ _ _ => True
  | _ => False

/-- Chunk `x` of node `k` is finished. -/
def Fin (cpc : Nat) (s : PgSys) (k x : Nat) : Prop := ∃ w t, (s.th k w).tid = some t ∧ t * cpc ≤ x ∧ x < (s.th k w).i
/-- Chunk `x` of node `k` is being worked on. -/
def Now (s : PgSys) (k x : Nat) : Prop := ∃ w, Busy (s.th k w).pc ∧ (s.th k w).i = x

/-- What holds of the threads -/
structure TInv (ts : List Nat) (cpc : Nat) (s : PgSys) : Prop where
  idle : ∀ k w, ¬ w < T ts k → s.th k w = ⟨none, 0, .done⟩
  st : ∀ k w, w < T ts k → ((s.th k w).tid = none ↔ (s.th k w).pc = .start)
  cnt : ∀ k, s.ids k = (List.range (T ts k)).countP (fun w => (s.th k w).tid.isSome)
  inj : ∀ k w w' t, (s.th k w).tid = some t → (s.th k w').tid = some t → w = w'
  surj : ∀ k t, t < s.ids k → ∃ w, (s.th k w).tid = some t
  lt : ∀ k w t, (s.th k w).tid = some t → t < s.ids k
  rng : ∀ k w t, (s.th k w).tid = some t → t * cpc ≤ (s.th k w).i ∧ (s.th k w).i ≤ t * cpc + cpc
  fin : ∀ k w t, (s.th k w).tid = some t → (s.th k w).pc = .done → (s.th k w).i = t * cpc + cpc
  bsy : ∀ k w t, (s.th k w).tid = some t → Busy (s.th k w).pc → (s.th k w).i < t * cpc + cpc
  rep : ∀ k w, (s.th k w).pc ≠ .report

theorem TInv.count_le {ts : List Nat} {cpc : Nat} {s : PgSys} (h : TInv ts cpc s) (k : Nat) : s.ids k ≤ T ts k := by
  rw [h.cnt k]
  exact Nat.le_trans List.countP_le_length (by simp)

theorem TInv.active {ts : List Nat} {cpc : Nat} {s : PgSys} (h : TInv ts cpc s) {k w : Nat}
    (hw : (s.th k w).tid ≠ none ∨ (s.th k w).pc ≠ .done) : w < T ts k := by
  by_contra hn
  have := h.idle k w hn
  rw [this] at hw
  simp at hw

/-- Two threads of a node do not have a chunk in common. -/
theorem TInv.own {ts : List Nat} {cpc : Nat} {s : PgSys} (h : TInv ts cpc s) {k w w' t t' x : Nat}
    (h1 : (s.th k w).tid = some t) (h2 : (s.th k w').tid = some t')
    (h3 : t * cpc ≤ x) (h4 : x < t * cpc + cpc) (h5 : t' * cpc ≤ x) (h6 : x < t' * cpc + cpc) : w = w' := by
  have e : t = t' := by
    rcases Nat.lt_trichotomy t t' with hl | he | hl
    · have := Nat.mul_le_mul_right cpc (show t + 1 ≤ t' from hl)
      rw [Nat.add_mul, Nat.one_mul] at this; omega
    · exact he
    · have := Nat.mul_le_mul_right cpc (show t' + 1 ≤ t from hl)
      rw [Nat.add_mul, Nat.one_mul] at this; omega
  subst e
  exact h.inj k w w' t h1 h2

theorem th_setTh (s : PgSys) (k w : Nat) (n : PgTh) : (s.setTh k w n).th k w = n := by simp [PgSys.setTh]
theorem th_setTh_ne (s : PgSys) {k w k' w' : Nat} (n : PgTh) (h : ¬ (k' = k ∧ w' = w)) :
    (s.setTh k w n).th k' w' = s.th k' w' := by simp only [PgSys.setTh]; rw [if_neg h]

/-- A thread goes on, with the number it has. -/
theorem TInv.upd {ts : List Nat} {cpc : Nat} {s s' : PgSys} (h : TInv ts cpc s) {k w t : Nat} {n : PgTh}
    (ht : (s.th k w).tid = some t) (hn : n.tid = some t) (hth : ∀ k' w', s'.th k' w' = if k' = k ∧ w' = w then n else s.th k' w')
    (hids : s'.ids = s.ids) (h1 : n.pc ≠ .start) (h2 : n.pc ≠ .report) (h3 : t * cpc ≤ n.i ∧ n.i ≤ t * cpc + cpc)
    (h4 : n.pc = .done → n.i = t * cpc + cpc) (h5 : Busy n.pc → n.i < t * cpc + cpc) : TInv ts cpc s' := by
  have hw : w < T ts k := h.active (.inl (by rw [ht]; simp))
  have htid : ∀ k' w', (s'.th k' w').tid = (s.th k' w').tid := by
    intro k' w'
    rw [hth]
    by_cases hc : k' = k ∧ w' = w
    · rw [if_pos hc, hn, hc.1, hc.2, ht]
    · rw [if_neg hc]
  refine ⟨?_, ?_, ?_, ?_, ?_, ?_, ?_, ?_, ?_, ?_⟩
  · intro k' w' hk
    rw [hth, if_neg (by rintro ⟨rfl, rfl⟩; exact hk hw)]
    exact h.idle k' w' hk
  · intro k' w' hk
    rw [htid]
    rw [hth]
    by_cases hc : k' = k ∧ w' = w
    · rw [if_pos hc, hc.1, hc.2, ht]
      simp [h1]
    · rw [if_neg hc]
      exact h.st k' w' hk
  · intro k'
    rw [hids, h.cnt k']
    simp only [htid]
  · intro k' a b u ha hb
    rw [htid] at ha hb
    exact h.inj k' a b u ha hb
  · intro k' u hu
    rw [hids] at hu
    obtain ⟨a, ha⟩ := h.surj k' u hu
    exact ⟨a, by rw [htid]; exact ha⟩
  · intro k' a u ha
    rw [htid] at ha
    rw [hids]
    exact h.lt k' a u ha
  · intro k' w' u hu
    rw [htid] at hu
    rw [hth]
    by_cases hc : k' = k ∧ w' = w
    · rw [if_pos hc]
      rw [hc.1, hc.2, ht] at hu
      cases hu
      exact h3
    · rw [if_neg hc]
      exact h.rng k' w' u hu
  · intro k' w' u hu
    rw [htid] at hu
    rw [hth]
    by_cases hc : k' = k ∧ w' = w
    · rw [if_pos hc]
      rw [hc.1, hc.2, ht] at hu
      cases hu
      exact h4
    · rw [if_neg hc]
      exact h.fin k' w' u hu
  · intro k' w' u hu
    rw [htid] at hu
    rw [hth]
    by_cases hc : k' = k ∧ w' = w
    · rw [if_pos hc]
      rw [hc.1, hc.2, ht] at hu
      cases hu
      exact h5
    · rw [if_neg hc]
      exact h.bsy k' w' u hu
  · intro k' w'
    rw [hth]
    by_cases hc : k' = k ∧ w' = w
    · rw [if_pos hc]; exact h2
    · rw [if_neg hc]; exact h.rep k' w'

theorem countP_flip {p q : Nat → Bool} {w : Nat} (hp : p w = false) (hq : q w = true) (hne : ∀ x, x ≠ w → q x = p x) :
    ∀ n, (List.range n).countP q = (List.range n).countP p + if w < n then 1 else 0 := by
  intro n
  induction n with
  | zero => simp
  | succ n ih =>
    rw [List.range_succ, List.countP_append, List.countP_append, ih]
    by_cases h : n = w
    · subst h
      simp [hp, hq]
    · have e : (w < n + 1) ↔ w < n := by omega
      simp only [List.countP_singleton, hne n h, e]
      omega

/-- A thread gets its number. -/
theorem TInv.claim {ts : List Nat} {cpc : Nat} {s s' : PgSys} (h : TInv ts cpc s) {k w : Nat}
    (ht : (s.th k w).tid = none) (hpc : (s.th k w).pc = .start)
    (hth : ∀ k' w', s'.th k' w' = if k' = k ∧ w' = w then ⟨some (s.ids k), s.ids k * cpc, .head⟩ else s.th k' w')
    (hids : ∀ k', s'.ids k' = if k' = k then s.ids k + 1 else s.ids k') : TInv ts cpc s' := by
  have hw : w < T ts k := h.active (.inr (by rw [hpc]; simp))
  refine ⟨?_, ?_, ?_, ?_, ?_, ?_, ?_, ?_, ?_, ?_⟩
  · intro k' w' hk
    rw [hth, if_neg (by rintro ⟨rfl, rfl⟩; exact hk hw)]
    exact h.idle k' w' hk
  · intro k' w' hk
    rw [hth]
    by_cases hc : k' = k ∧ w' = w
    · rw [if_pos hc]; simp
    · rw [if_neg hc]
      exact h.st k' w' hk
  · intro k'
    rw [hids]
    by_cases hk : k' = k
    · subst hk
      rw [if_pos rfl, countP_flip (p := fun w => (s.th k' w).tid.isSome) (w := w) (by simp [ht]) (by simp [hth])
        (by intro x hx; simp [hth, hx]), if_pos hw, ← h.cnt]
    · rw [if_neg hk, h.cnt k']
      simp [hth, hk]
  · intro k' a b u ha hb
    rw [hth] at ha hb
    by_cases ha' : k' = k ∧ a = w <;> by_cases hb' : k' = k ∧ b = w
    · rw [ha'.2, hb'.2]
    · rw [if_pos ha'] at ha
      rw [if_neg hb'] at hb
      have := h.lt k' b u hb
      rw [ha'.1] at this
      simp only [Option.some.injEq] at ha
      omega
    · rw [if_neg ha'] at ha
      rw [if_pos hb'] at hb
      have := h.lt k' a u ha
      rw [hb'.1] at this
      simp only [Option.some.injEq] at hb
      omega
    · rw [if_neg ha'] at ha
      rw [if_neg hb'] at hb
      exact h.inj k' a b u ha hb
  · intro k' u hu
    rw [hids] at hu
    by_cases hk : k' = k
    · subst hk
      rw [if_pos rfl] at hu
      by_cases hu' : u = s.ids k'
      · exact ⟨w, by rw [hth, if_pos ⟨rfl, rfl⟩, hu']⟩
      · obtain ⟨a, ha⟩ := h.surj k' u (by omega)
        refine ⟨a, ?_⟩
        rw [hth, if_neg (by rintro ⟨-, rfl⟩; rw [ht] at ha; cases ha)]
        exact ha
    · rw [if_neg hk] at hu
      obtain ⟨a, ha⟩ := h.surj k' u hu
      exact ⟨a, by rw [hth, if_neg (by rintro ⟨h, -⟩; exact hk h)]; exact ha⟩
  · intro k' a u ha
    rw [hth] at ha
    rw [hids]
    by_cases ha' : k' = k ∧ a = w
    · rw [if_pos ha'] at ha
      rw [if_pos ha'.1]
      simp only [Option.some.injEq] at ha
      omega
    · rw [if_neg ha'] at ha
      have := h.lt k' a u ha
      split
      · rename_i hk; rw [hk] at this; omega
      · exact this
  all_goals
    intro k' w'
    rw [hth]
    by_cases hc : k' = k ∧ w' = w
  · rw [if_pos hc]
    intro u hu
    simp only [Option.some.injEq] at hu
    subst hu
    exact ⟨Nat.le_refl _, Nat.le_add_right _ _⟩
  · rw [if_neg hc]; exact h.rng k' w'
  · rw [if_pos hc]
    intro u hu hd
    cases hd
  · rw [if_neg hc]; exact h.fin k' w'
  · rw [if_pos hc]
    intro u hu hd
    exact hd.elim
  · rw [if_neg hc]; exact h.bsy k' w'
  · rw [if_pos hc]; simp
  · rw [if_neg hc]; exact h.rep k' w'

theorem TInv.start (stop : Bool) (cpc : Nat) (ts : List Nat) (mem : Nat → NodeMem) : TInv ts cpc (pgStart stop cpc ts mem) := by
  cases stop
  · have hth : ∀ k w, (pgStart false cpc ts mem).th k w = if w < T ts k then ⟨some w, w * cpc, .head⟩ else ⟨none, 0, .done⟩ := fun _ _ => rfl
    have htid : ∀ k w t, ((pgStart false cpc ts mem).th k w).tid = some t ↔ w < T ts k ∧ t = w := by
      intro k w t
      rw [hth]
      split <;> simp_all [eq_comm]
    refine ⟨?_, ?_, ?_, ?_, ?_, ?_, ?_, ?_, ?_, ?_⟩
    · intro k w h; rw [hth, if_neg h]
    · intro k w h; rw [hth, if_pos h]; simp
    · intro k
      show T ts k = _
      rw [List.countP_eq_length.2, List.length_range]
      intro w hw
      rw [hth, if_pos (List.mem_range.1 hw)]
      rfl
    · intro k w w' t h h'
      have h1 := (htid k w t).1 h
      have h2 := (htid k w' t).1 h'
      omega
    · intro k t ht
      exact ⟨t, (htid k t t).2 ⟨ht, rfl⟩⟩
    · intro k w t h
      have := (htid k w t).1 h
      show t < T ts k
      omega
    · intro k w t h
      have h1 := (htid k w t).1 h
      rw [hth, if_pos h1.1, h1.2]
      exact ⟨Nat.le_refl _, Nat.le_add_right _ _⟩
    · intro k w t h
      have h1 := (htid k w t).1 h
      rw [hth, if_pos h1.1]
      intro h; cases h
    · intro k w t h
      have h1 := (htid k w t).1 h
      rw [hth, if_pos h1.1]
      intro h; exact h.elim
    · intro k w
      rw [hth]
      split <;> simp
  · have hth : ∀ k w, (pgStart true cpc ts mem).th k w = if w < T ts k then ⟨none, 0, .start⟩ else ⟨none, 0, .done⟩ := fun _ _ => rfl
    have htid : ∀ k w, ((pgStart true cpc ts mem).th k w).tid = none := by
      intro k w
      rw [hth]
      split <;> rfl
    refine ⟨?_, ?_, ?_, ?_, ?_, ?_, ?_, ?_, ?_, ?_⟩
    · intro k w h; rw [hth, if_neg h]
    · intro k w h; rw [hth, if_pos h]; simp
    · intro k
      show 0 = _
      simp [htid]
    · intro k w w' t h; rw [htid] at h; cases h
    · intro k t ht; exact absurd ht (Nat.not_lt_zero _)
    · intro k w t h; rw [htid] at h; cases h
    · intro k w t h; rw [htid] at h; cases h
    · intro k w t h; rw [htid] at h; cases h
    · intro k w t h; rw [htid] at h; cases h
    · intro k w
      rw [hth]
      split <;> simp

/-! ## Memory -/

/-- Only the output of chunk `i` and its size have changed. -/
structure Change (d : PgDir) (i : Nat) (m m' : NodeMem) : Prop where
  eq : m' = d.put m (d.out m') (d.sizes m')
  out : (d.out m').length = (d.out m).length
  sizes : (d.sizes m').length = (d.sizes m).length
  bytes : ∀ q, ¬ (i * d.width ≤ q ∧ q < i * d.width + d.width) → (d.out m')[q]? = (d.out m)[q]?
  cells : ∀ x, x ≠ i → (d.sizes m')[x]? = (d.sizes m)[x]?

@[simp] theorem out_put (d : PgDir) (m : NodeMem) (b : List Byte) (z : List Nat) : d.out (d.put m b z) = b := by cases d <;> rfl
@[simp] theorem sizes_put (d : PgDir) (m : NodeMem) (b : List Byte) (z : List Nat) : d.sizes (d.put m b z) = z := by cases d <;> rfl
theorem put_self (d : PgDir) (m : NodeMem) : d.put m (d.out m) (d.sizes m) = m := by cases d <;> rfl

theorem Change.refl (d : PgDir) (i : Nat) (m : NodeMem) : Change d i m m :=
  ⟨(put_self d m).symm, rfl, rfl, fun _ _ => rfl, fun _ _ => rfl⟩

theorem Change.store (d : PgDir) (i v : Nat) (m : NodeMem) : Change d i m (d.put m (d.out m) ((d.sizes m).set i v)) :=
  ⟨by rw [out_put, sizes_put], by rw [out_put], by rw [sizes_put, List.length_set], fun _ _ => by rw [out_put],
    fun x hx => by rw [sizes_put, List.getElem?_set_ne (Ne.symm hx)]⟩

theorem Change.splice {d : PgDir} {i v : Nat} {m : NodeMem} {bs : List Byte} (hb : bs.length = d.width)
    (hi : i * d.width + d.width ≤ (d.out m).length) :
    Change d i m (d.put m (splice (d.out m) (i * d.width) bs) ((d.sizes m).set i v)) := by
  refine ⟨by rw [out_put, sizes_put], by rw [out_put, length_splice (by omega)], by rw [sizes_put, List.length_set], fun q hq => ?_,
    fun x hx => by rw [sizes_put, List.getElem?_set_ne (Ne.symm hx)]⟩
  rw [out_put, getElem?_splice (by omega), if_neg (by omega)]

/-- What a phase does with the memory: `Stat` always holds, `P` of the chunks that are finished, `Q` of those not yet started; `Res` is
what is known of the results of a call. -/
structure Phase (d : PgDir) (f g : ChunkFn) (a : PgAddrs) (N cpn : Nat) (E : Nat → Nat → Prop) (Stat : Nat → NodeMem → Prop)
    (P Q : Nat → Nat → NodeMem → Prop) (Res : Nat → Nat → Nat → List Byte → Prop) : Prop where
  lens : ∀ k m, Stat k m → (d.sizes m).length = cpn ∧ cpn * d.width ≤ (d.out m).length
  frame : ∀ k m m' i, Stat k m → Change d i m m' → Stat k m' ∧ ∀ x, x ≠ i → (P k x m → P k x m') ∧ (Q k x m → Q k x m')
  call : ∀ k m i, k < N → Stat k m → i < cpn → E k i → (d.sizes m)[i]? = some d.width →
    ∃ n buf, pgCall f g a k i m d = some (none, n, buf) ∧ buf.length = d.width ∧ Res k i n buf
  leave : ∀ k m i n buf, Stat k m → i < cpn → buf.length = d.width → Res k i n buf →
    P k i (d.put m (splice (d.out m) (i * d.width) buf) ((d.sizes m).set i n))

/-- What holds of the memory -/
structure MInv (d : PgDir) (N cpc : Nat) (Stat : Nat → NodeMem → Prop)
    (P Q : Nat → Nat → NodeMem → Prop) (Res : Nat → Nat → Nat → List Byte → Prop) (s : PgSys) : Prop where
  cap : ∀ k w, (s.th k w).pc = .call → (d.sizes (s.mem k))[(s.th k w).i]? = some d.width
  ins : ∀ k w rc n buf, (s.th k w).pc = .inside rc n buf → rc = none ∧ buf.length = d.width ∧ Res k (s.th k w).i n buf
  stat : ∀ k < N, Stat k (s.mem k)
  don : ∀ k < N, ∀ x, Fin cpc s k x → P k x (s.mem k)
  unt : ∀ k < N, ∀ x, ¬ Fin cpc s k x → ¬ Now s k x → Q k x (s.mem k)

section
variable {d : PgDir} {f g : ChunkFn} {a : PgAddrs} {stop : Bool} {N cpn cpc : Nat} {ts : List Nat} {E : Nat → Nat → Prop}
  {Stat : Nat → NodeMem → Prop} {P Q : Nat → Nat → NodeMem → Prop} {Res : Nat → Nat → Nat → List Byte → Prop}

/-- A step of a thread that works on chunk `i` -/
theorem MInv.upd (hph : Phase d f g a N cpn E Stat P Q Res) {s s' : PgSys} (hT : TInv ts cpc s) (h : MInv d N cpc Stat P Q Res s)
    {k w t i : Nat} {n : PgTh} (hk : k < N) (ht : (s.th k w).tid = some t) (hi : (s.th k w).i = i) (hit : i < t * cpc + cpc)
    (hth : ∀ k' w', s'.th k' w' = if k' = k ∧ w' = w then n else s.th k' w')
    (hmem : ∀ k', k' ≠ k → s'.mem k' = s.mem k') (hch : Change d i (s.mem k) (s'.mem k))
    (hnt : n.tid = some t) (hn : n.i = i ∧ Busy n.pc ∨ n.i = i + 1 ∧ n.pc = .head ∧ P k i (s'.mem k))
    (hcap : n.pc = .call → (d.sizes (s'.mem k))[i]? = some d.width)
    (hins : ∀ rc x buf, n.pc = .inside rc x buf → rc = none ∧ buf.length = d.width ∧ Res k i x buf) :
    MInv d N cpc Stat P Q Res s' := by
  have hrng := hT.rng k w t ht
  rw [hi] at hrng
  -- chunk `i` belongs to this thread only
  have hother : ∀ w', w' ≠ w → Busy (s.th k w').pc → (s.th k w').i ≠ i := by
    intro w' hw' hb he
    have hne : (s.th k w').tid ≠ none := by
      intro hnone
      have hlt : w' < T ts k := hT.active (.inr (by intro hd; rw [hd] at hb; exact hb))
      have := (hT.st k w' hlt).1 hnone
      rw [this] at hb
      exact hb
    obtain ⟨t', ht'⟩ := Option.ne_none_iff_exists'.1 hne
    have h1 := hT.rng k w' t' ht'
    have h2 := hT.bsy k w' t' ht' hb
    exact hw' (hT.own ht' ht (x := i) (by omega) (by omega) hrng.1 hit)
  have hfin : ∀ x, x ≠ i → (Fin cpc s' k x ↔ Fin cpc s k x) := by
    intro x hx
    have key : ∀ w' u, ((s'.th k w').tid = some u ∧ u * cpc ≤ x ∧ x < (s'.th k w').i) ↔
        ((s.th k w').tid = some u ∧ u * cpc ≤ x ∧ x < (s.th k w').i) := by
      intro w' u
      rw [hth]
      by_cases hw' : w' = w
      · subst hw'
        rw [if_pos ⟨rfl, rfl⟩, hnt, ht, hi]
        have : x < n.i ↔ x < i := by
          rcases hn with ⟨e, -⟩ | ⟨e, -⟩ <;> rw [e] <;> omega
        rw [this]
      · rw [if_neg (by rintro ⟨-, h⟩; exact hw' h)]
    exact ⟨fun ⟨w', u, hh⟩ => ⟨w', u, (key w' u).1 hh⟩, fun ⟨w', u, hh⟩ => ⟨w', u, (key w' u).2 hh⟩⟩
  have hnotfin : ¬ Fin cpc s k i := by
    rintro ⟨w', u, h1, h2, h3⟩
    have h4 := hT.rng k w' u h1
    have : w' = w := hT.own h1 ht (x := i) h2 (by omega) hrng.1 hit
    subst this
    omega
  have hnode : ∀ k', k' ≠ k → (∀ x, Fin cpc s' k' x ↔ Fin cpc s k' x) ∧ (∀ x, Now s' k' x ↔ Now s k' x) := by
    intro k' hk'
    have e : ∀ w', s'.th k' w' = s.th k' w' := fun w' => by rw [hth, if_neg (by rintro ⟨h, -⟩; exact hk' h)]
    constructor <;> intro x
    · unfold Fin; simp only [e]
    · unfold Now; simp only [e]
  obtain ⟨fr1, fr2⟩ := hph.frame k _ _ i (h.stat k hk) hch
  refine ⟨?_, ?_, ?_, ?_, ?_⟩
  · intro k' w' hpc
    by_cases hk' : k' = k
    · subst hk'
      by_cases hw' : w' = w
      · subst hw'
        rw [hth, if_pos ⟨rfl, rfl⟩] at hpc ⊢
        rcases hn with ⟨e, -⟩ | ⟨-, e, -⟩
        · rw [e]; exact hcap hpc
        · rw [e] at hpc; cases hpc
      · rw [hth, if_neg (by rintro ⟨-, h⟩; exact hw' h)] at hpc ⊢
        have := hother w' hw' (by rw [hpc]; trivial)
        rw [hch.cells _ this]
        exact h.cap k' w' hpc
    · rw [hth, if_neg (by rintro ⟨h, -⟩; exact hk' h)] at hpc ⊢
      rw [hmem k' hk']
      exact h.cap k' w' hpc
  · intro k' w' rc x buf hpc
    rw [hth] at hpc ⊢
    by_cases hc : k' = k ∧ w' = w
    · rw [if_pos hc] at hpc ⊢
      rcases hn with ⟨e, -⟩ | ⟨-, e, -⟩
      · rw [e, hc.1]; exact hins rc x buf hpc
      · rw [e] at hpc; cases hpc
    · rw [if_neg hc] at hpc ⊢
      exact h.ins k' w' rc x buf hpc
  · intro k' hk'
    by_cases he : k' = k
    · subst he; exact fr1
    · rw [hmem k' he]; exact h.stat k' hk'
  · intro k' hk' x hx
    by_cases he : k' = k
    · subst he
      by_cases hxi : x = i
      · subst hxi
        rcases hn with ⟨e, hb⟩ | ⟨-, -, e⟩
        · exfalso
          obtain ⟨w', u, h1, h2, h3⟩ := hx
          rw [hth] at h1 h3
          by_cases hw' : w' = w
          · subst hw'
            rw [if_pos ⟨rfl, rfl⟩] at h3
            omega
          · rw [if_neg (by rintro ⟨-, h⟩; exact hw' h)] at h1 h3
            exact hnotfin ⟨w', u, h1, h2, h3⟩
        · exact e
      · exact (fr2 x hxi).1 (h.don k' hk' x ((hfin x hxi).1 hx))
    · rw [hmem k' he]
      exact h.don k' hk' x (((hnode k' he).1 x).1 hx)
  · intro k' hk' x hx hx'
    by_cases he : k' = k
    · subst he
      by_cases hxi : x = i
      · subst hxi
        exfalso
        rcases hn with ⟨e, hb⟩ | ⟨e, -, -⟩
        · exact hx' ⟨w, by rw [hth, if_pos ⟨rfl, rfl⟩]; exact ⟨hb, e⟩⟩
        · exact hx ⟨w, t, by rw [hth, if_pos ⟨rfl, rfl⟩]; exact ⟨hnt, hrng.1, by omega⟩⟩
      · refine (fr2 x hxi).2 (h.unt k' hk' x (fun hf => hx ((hfin x hxi).2 hf)) ?_)
        rintro ⟨w', hb, hw'⟩
        refine hx' ⟨w', ?_⟩
        have : w' ≠ w := by
          rintro rfl
          rw [hi] at hw'
          exact hxi hw'.symm
        rw [hth, if_neg (by rintro ⟨-, h⟩; exact this h)]
        exact ⟨hb, hw'⟩
    · rw [hmem k' he]
      exact h.unt k' hk' x (fun hf => hx (((hnode k' he).1 x).2 hf)) (fun hf => hx' (((hnode k' he).2 x).2 hf))

/-- A step that concerns no chunk -/
theorem MInv.same {s s' : PgSys} (h : MInv d N cpc Stat P Q Res s) {k w : Nat} {n : PgTh}
    (hth : ∀ k' w', s'.th k' w' = if k' = k ∧ w' = w then n else s.th k' w') (hmem : s'.mem = s.mem)
    (hn : ¬ Busy n.pc) (ho : ¬ Busy (s.th k w).pc)
    (hfin : ∀ x, (∃ t, n.tid = some t ∧ t * cpc ≤ x ∧ x < n.i) ↔ ∃ t, (s.th k w).tid = some t ∧ t * cpc ≤ x ∧ x < (s.th k w).i) :
    MInv d N cpc Stat P Q Res s' := by
  have hF : ∀ k' x, Fin cpc s' k' x ↔ Fin cpc s k' x := by
    intro k' x
    have key : ∀ w', (∃ t, (s'.th k' w').tid = some t ∧ t * cpc ≤ x ∧ x < (s'.th k' w').i) ↔
        ∃ t, (s.th k' w').tid = some t ∧ t * cpc ≤ x ∧ x < (s.th k' w').i := by
      intro w'
      rw [hth]
      by_cases hc : k' = k ∧ w' = w
      · rw [if_pos hc, hc.1, hc.2]; exact hfin x
      · rw [if_neg hc]
    exact ⟨fun ⟨w', hh⟩ => ⟨w', (key w').1 hh⟩, fun ⟨w', hh⟩ => ⟨w', (key w').2 hh⟩⟩
  have hNow : ∀ k' x, Now s' k' x ↔ Now s k' x := by
    intro k' x
    have key : ∀ w', (Busy (s'.th k' w').pc ∧ (s'.th k' w').i = x) ↔ (Busy (s.th k' w').pc ∧ (s.th k' w').i = x) := by
      intro w'
      rw [hth]
      by_cases hc : k' = k ∧ w' = w
      · rw [if_pos hc, hc.1, hc.2]
        simp [hn, ho]
      · rw [if_neg hc]
    exact ⟨fun ⟨w', hh⟩ => ⟨w', (key w').1 hh⟩, fun ⟨w', hh⟩ => ⟨w', (key w').2 hh⟩⟩
  refine ⟨?_, ?_, by rw [hmem]; exact h.stat, ?_, ?_⟩
  · intro k' w' hpc
    rw [hth] at hpc ⊢
    rw [hmem]
    by_cases hc : k' = k ∧ w' = w
    · rw [if_pos hc] at hpc
      rw [hpc] at hn
      exact absurd trivial hn
    · rw [if_neg hc] at hpc ⊢
      exact h.cap k' w' hpc
  · intro k' w' rc x buf hpc
    rw [hth] at hpc ⊢
    by_cases hc : k' = k ∧ w' = w
    · rw [if_pos hc] at hpc
      rw [hpc] at hn
      exact absurd trivial hn
    · rw [if_neg hc] at hpc ⊢
      exact h.ins k' w' rc x buf hpc
  · intro k' hk' x hx
    rw [hmem]
    exact h.don k' hk' x ((hF k' x).1 hx)
  · intro k' hk' x hx hx'
    rw [hmem]
    exact h.unt k' hk' x (fun hf => hx ((hF k' x).2 hf)) (fun hf => hx' ((hNow k' x).2 hf))

/-- The numbers of threads and chunks fit. -/
structure Fits (ts : List Nat) (N cpn cpc : Nat) (E : Nat → Nat → Prop) : Prop where
  pos : 0 < cpc
  nodes : ∀ k, N ≤ k → T ts k = 0
  fits : ∀ k t, t < T ts k → t * cpc + cpc ≤ cpn
  big : cpn < 2 ^ 64
  mine : ∀ k t, t < T ts k → ∀ x, t * cpc ≤ x → x < t * cpc + cpc → E k x

theorem pgEnd_eq {cpc t : Nat} (h : 0 < cpc) (h2 : t * cpc + cpc < 2 ^ 64) : pgEnd cpc t = t * cpc + cpc - 1 := by
  unfold pgEnd; omega

theorem width_pos (d : PgDir) : 0 < d.width := by cases d <;> decide

theorem Fits.node (hF : Fits ts N cpn cpc E) {k w : Nat} (h : w < T ts k) : k < N := by
  by_contra hn
  rw [hF.nodes k (by omega)] at h
  omega

/-- Where a thread with a number is -/
theorem place (hF : Fits ts N cpn cpc E) {s : PgSys} (hT : TInv ts cpc s) {k w t : Nat} (ht : (s.th k w).tid = some t) :
    k < N ∧ t < T ts k ∧ t * cpc + cpc ≤ cpn ∧ pgEnd cpc t = t * cpc + cpc - 1 := by
  have hw : w < T ts k := hT.active (.inl (by rw [ht]; simp))
  have h1 := hT.lt k w t ht
  have h2 := hT.count_le k
  have h3 := hF.fits k t (by omega)
  have h4 := hF.big
  exact ⟨hF.node hw, by omega, h3, pgEnd_eq hF.pos (by omega)⟩

theorem room {k i : Nat} {m : NodeMem} (hph : Phase d f g a N cpn E Stat P Q Res) (hs : Stat k m) (hi : i < cpn) :
    i * d.width + d.width ≤ (d.out m).length := by
  have h1 := (hph.lens k m hs).2
  have h2 := Nat.mul_le_mul_right d.width (show i + 1 ≤ cpn from hi)
  rw [Nat.add_mul, Nat.one_mul] at h2
  omega

theorem mem_setMem (s : PgSys) (k : Nat) (m : NodeMem) : (s.setMem k m).mem k = m := by simp [PgSys.setMem]
theorem mem_setMem_ne (s : PgSys) {k k' : Nat} (m : NodeMem) (h : k' ≠ k) : (s.setMem k m).mem k' = s.mem k' := by
  simp [PgSys.setMem, h]

/-- Every step preserves the invariants. -/
theorem inv_step (hF : Fits ts N cpn cpc E) (hph : Phase d f g a N cpn E Stat P Q Res) {s s' : PgSys} {b : Bool}
    (hT : TInv ts cpc s) (h : MInv d N cpc Stat P Q Res s) (hs : PgStep d f g a stop cpc s s' b) :
    TInv ts cpc s' ∧ MInv d N cpc Stat P Q Res s' := by
  cases hs with
  | @claim k w i hth =>
    refine ⟨hT.claim (k := k) (w := w) (by rw [hth]) (by rw [hth]) (fun _ _ => rfl) (fun _ => rfl),
      h.same (k := k) (w := w) (fun _ _ => rfl) rfl (by intro h; exact h) (by rw [hth]; intro h; exact h) fun x => ?_⟩
    rw [hth]
    simp
  | @quit k w t i hth hlt =>
    have ht : (s.th k w).tid = some t := by rw [hth]
    obtain ⟨p1, p2, p3, p4⟩ := place hF hT ht
    have hr := hT.rng k w t ht
    rw [hth] at hr
    simp only at hr
    have := hF.pos
    have hi : i = t * cpc + cpc := by omega
    refine ⟨hT.upd (k := k) (w := w) ht rfl (fun _ _ => rfl) rfl (by simp) (by simp) hr (fun _ => hi) (fun h => h.elim),
      h.same (k := k) (w := w) (fun _ _ => rfl) rfl (by intro h; exact h) (by rw [hth]; intro h; exact h) fun x => ?_⟩
    rw [hth]
  | @store k w t i hth hle hlt =>
    have ht : (s.th k w).tid = some t := by rw [hth]
    obtain ⟨p1, p2, p3, p4⟩ := place hF hT ht
    have hr := hT.rng k w t ht
    rw [hth] at hr
    simp only at hr
    have := hF.pos
    have hit : i < t * cpc + cpc := by omega
    refine ⟨hT.upd (k := k) (w := w) ht rfl (fun _ _ => rfl) rfl (by simp) (by simp) hr (by simp) (fun _ => hit),
      h.upd hph hT (k := k) (w := w) p1 ht (by rw [hth]) hit (fun _ _ => rfl) (fun k' hk' => mem_setMem_ne s _ hk') ?_ rfl
        (.inl ⟨rfl, trivial⟩) (fun _ => ?_) (by simp)⟩
    · show Change d i _ ((s.setMem k _).mem k)
      rw [mem_setMem]
      exact Change.store d i _ _
    · show (d.sizes ((s.setMem k _).mem k))[i]? = _
      rw [mem_setMem, sizes_put, List.getElem?_set_self hlt]
  | @enter k w t i n rc buf hth hcall =>
    have ht : (s.th k w).tid = some t := by rw [hth]
    obtain ⟨p1, p2, p3, p4⟩ := place hF hT ht
    have hr := hT.rng k w t ht
    have hb := hT.bsy k w t ht (by rw [hth]; trivial)
    rw [hth] at hr hb
    simp only at hr hb
    have hc := h.cap k w (by rw [hth])
    rw [hth] at hc
    obtain ⟨n', buf', c1, c2, c3⟩ := hph.call k (s.mem k) i p1 (h.stat k p1) (by omega) (hF.mine k t p2 i hr.1 hb) hc
    rw [c1] at hcall
    cases hcall
    refine ⟨hT.upd (k := k) (w := w) ht rfl (fun _ _ => rfl) rfl (by simp) (by simp) hr (by simp) (fun _ => hb),
      h.upd hph hT (k := k) (w := w) p1 ht (by rw [hth]) hb (fun _ _ => rfl) (fun k' hk' => rfl) (Change.refl d i _) rfl
        (.inl ⟨rfl, trivial⟩) (by simp) (fun rc x buf he => ?_)⟩
    cases he
    exact ⟨rfl, c2, c3⟩
  | @scratch k w t i n v rc buf bs hth hlen =>
    have ht : (s.th k w).tid = some t := by rw [hth]
    obtain ⟨p1, p2, p3, p4⟩ := place hF hT ht
    have hr := hT.rng k w t ht
    have hb := hT.bsy k w t ht (by rw [hth]; trivial)
    rw [hth] at hr hb
    simp only at hr hb
    obtain ⟨i1, i2, i3⟩ := h.ins k w rc n buf (by rw [hth])
    have hself : ∀ k' w', s.th k' w' = if k' = k ∧ w' = w then ⟨some t, i, .inside rc n buf⟩ else s.th k' w' := by
      intro k' w'
      by_cases hc : k' = k ∧ w' = w
      · rw [if_pos hc, hc.1, hc.2, hth]
      · rw [if_neg hc]
    refine ⟨hT.upd (k := k) (w := w) ht rfl hself rfl (by simp) (by simp) hr (by simp) (fun _ => hb),
      h.upd hph hT (k := k) (w := w) p1 ht (by rw [hth]) hb hself (fun k' hk' => mem_setMem_ne s _ hk') ?_ rfl
        (.inl ⟨rfl, trivial⟩) (by simp) (fun rc' x buf' he => ?_)⟩
    · rw [mem_setMem]
      exact Change.splice (by omega) (room hph (h.stat k p1) (by omega))
    · cases he
      rw [hth] at i3
      exact ⟨i1, i2, i3⟩
  | @leave k w t i n rc buf hth =>
    have ht : (s.th k w).tid = some t := by rw [hth]
    obtain ⟨p1, p2, p3, p4⟩ := place hF hT ht
    have hr := hT.rng k w t ht
    have hb := hT.bsy k w t ht (by rw [hth]; trivial)
    obtain ⟨i1, i2, i3⟩ := h.ins k w rc n buf (by rw [hth])
    rw [hth] at hr hb i3
    simp only at hr hb i3
    subst i1
    rw [if_pos rfl]
    refine ⟨hT.upd (k := k) (w := w) ht rfl (fun _ _ => rfl) rfl (by simp) (by simp) (by simp only; omega) (by simp) (fun h => h.elim),
      h.upd hph hT (k := k) (w := w) p1 ht (by rw [hth]) hb (fun _ _ => rfl) (fun k' hk' => mem_setMem_ne s _ hk') ?_ rfl
        (.inr ⟨rfl, rfl, ?_⟩) (by simp) (by simp)⟩
    · show Change d i _ ((s.setMem k _).mem k)
      rw [mem_setMem]
      exact Change.splice i2 (room hph (h.stat k p1) (by omega))
    · show P k i ((s.setMem k _).mem k)
      rw [mem_setMem]
      exact hph.leave k _ i n buf (h.stat k p1) (by omega) i2 i3
  | @report k w t i hth =>
    exact absurd (by rw [hth]) (hT.rep k w)

theorem inv_exec (hF : Fits ts N cpn cpc E) (hph : Phase d f g a N cpn E Stat P Q Res) {s₀ s : PgSys} {n : Nat}
    (hT : TInv ts cpc s₀) (h : MInv d N cpc Stat P Q Res s₀) (hs : PgExec d f g a stop cpc s₀ n s) :
    TInv ts cpc s ∧ MInv d N cpc Stat P Q Res s := by
  induction hs with
  | init => exact ⟨hT, h⟩
  | step _ hst ih => exact inv_step hF hph ih.1 ih.2 hst

theorem no_fault (hF : Fits ts N cpn cpc E) (hph : Phase d f g a N cpn E Stat P Q Res) {s : PgSys}
    (hT : TInv ts cpc s) (h : MInv d N cpc Stat P Q Res s) : ¬ PgFault d f g a cpc s := by
  rintro ⟨k, w, t, i, ⟨hth, hle, hlen⟩ | ⟨hth, hnone⟩⟩
  · have ht : (s.th k w).tid = some t := by rw [hth]
    obtain ⟨p1, p2, p3, p4⟩ := place hF hT ht
    have := (hph.lens k _ (h.stat k p1)).1
    have := hF.pos
    omega
  · have ht : (s.th k w).tid = some t := by rw [hth]
    obtain ⟨p1, p2, p3, p4⟩ := place hF hT ht
    have hr := hT.rng k w t ht
    have hb := hT.bsy k w t ht (by rw [hth]; trivial)
    have hc := h.cap k w (by rw [hth])
    rw [hth] at hr hb hc
    simp only at hr hb hc
    obtain ⟨n', buf', c1, -⟩ := hph.call k (s.mem k) i p1 (h.stat k p1) (by omega) (hF.mine k t p2 i hr.1 hb) hc
    rw [c1] at hnone
    cases hnone

/-- At the end all chunks of all threads are finished. -/
theorem all_done {s : PgSys} (hT : TInv ts cpc s) (hd : s.Done) {k t x : Nat} (ht : t < T ts k)
    (h1 : t * cpc ≤ x) (h2 : x < t * cpc + cpc) : Fin cpc s k x := by
  have hids : s.ids k = T ts k := by
    rw [hT.cnt k, List.countP_eq_length.2, List.length_range]
    intro w hw
    have hw := List.mem_range.1 hw
    by_contra hn
    have := (hT.st k w hw).1 (by simpa using hn)
    rw [hd k w] at this
    cases this
  obtain ⟨w, hw⟩ := hT.surj k t (by omega)
  exact ⟨w, t, hw, h1, by rw [hT.fin k w t hw (hd k w)]; exact h2⟩

theorem not_done {s : PgSys} (hT : TInv ts cpc s) (hd : s.Done) {k x : Nat}
    (h : ∀ t, t < T ts k → ¬ (t * cpc ≤ x ∧ x < t * cpc + cpc)) : ¬ Fin cpc s k x ∧ ¬ Now s k x := by
  constructor
  · rintro ⟨w, t, ht, h1, h2⟩
    have h3 := hT.lt k w t ht
    have h4 := hT.count_le k
    have h5 := hT.rng k w t ht
    exact h t (by omega) ⟨h1, by omega⟩
  · rintro ⟨w, hb, -⟩
    rw [hd k w] at hb
    exact hb

/-! ## Progress -/

/-- A thread that has not ended can go on. -/
theorem can_step (hF : Fits ts N cpn cpc E) (hph : Phase d f g a N cpn E Stat P Q Res) {s : PgSys}
    (hT : TInv ts cpc s) (h : MInv d N cpc Stat P Q Res s) {k w : Nat} (hd : (s.th k w).pc ≠ .done) :
    ∃ s', PgStep d f g a stop cpc s s' false ∧ s'.th k w ≠ s.th k w := by
  have hw : w < T ts k := hT.active (.inr hd)
  rcases hth : s.th k w with ⟨tid, i, pc⟩
  have hst := hT.st k w hw
  rw [hth] at hst hd
  simp only at hst hd
  have hs : ∀ (z : PgSys) (n : PgTh), (z.setTh k w n).th k w = n := fun z n => th_setTh z k w n
  cases tid with
  | none =>
    have := hst.1 rfl
    subst this
    exact ⟨_, .claim hth, by rw [hs]; simp⟩
  | some t =>
    have ht : (s.th k w).tid = some t := by rw [hth]
    have hr := hT.rng k w t ht
    rw [hth] at hr
    simp only at hr
    obtain ⟨p1, p2, p3, p4⟩ := place hF hT ht
    cases pc with
    | start => exact absurd (hst.2 rfl) (by simp)
    | head =>
      by_cases hle : i ≤ pgEnd cpc t
      · refine ⟨_, .store hth hle ?_, by rw [hs]; simp⟩
        have := (hph.lens k _ (h.stat k p1)).1
        have := hF.pos
        omega
      · exact ⟨_, .quit hth (by omega), by rw [hs]; simp⟩
    | call =>
      cases hc : pgCall f g a k i (s.mem k) d with
      | none => exact absurd ⟨k, w, t, i, .inr ⟨hth, hc⟩⟩ (no_fault hF hph hT h)
      | some r => exact ⟨_, .enter hth hc, by rw [hs]; simp⟩
    | inside rc n buf =>
      refine ⟨_, .leave hth, ?_⟩
      rw [hs]
      split <;> simp
    | report => exact absurd (by rw [hth]) (hT.rep k w)
    | done => exact absurd rfl hd

/-- How many steps a thread has at most before it -/
def rank (cpc : Nat) : PgTh → Nat
  | ⟨none, _, .start⟩ => 3 * cpc + 2
  | ⟨some t, i, .head⟩ => 3 * (t * cpc + cpc - i) + 1
  | ⟨some t, i, .call⟩ => 3 * (t * cpc + cpc - i)
  | ⟨some t, i, .inside _ _ _⟩ => 3 * (t * cpc + cpc - i) - 1
  | _ => 0

theorem rank_step (hF : Fits ts N cpn cpc E) (hph : Phase d f g a N cpn E Stat P Q Res) {s s' : PgSys} {b : Bool}
    (hT : TInv ts cpc s) (h : MInv d N cpc Stat P Q Res s) (hs : PgStep d f g a stop cpc s s' b) :
    (b = true → s'.th = s.th) ∧
    (b = false → ∃ k w, w < T ts k ∧ rank cpc (s'.th k w) < rank cpc (s.th k w) ∧
      ∀ k' w', ¬ (k' = k ∧ w' = w) → s'.th k' w' = s.th k' w') := by
  have hs' : ∀ (z : PgSys) (k w : Nat) (n : PgTh), (z.setTh k w n).th k w = n := fun z k w n => th_setTh z k w n
  cases hs with
  | @claim k w i hth =>
    refine ⟨by simp, fun _ => ⟨k, w, hT.active (.inr (by rw [hth]; simp)), ?_, fun _ _ hne => th_setTh_ne _ _ hne⟩⟩
    rw [hs', hth]
    simp only [rank]
    omega
  | @quit k w t i hth hlt =>
    refine ⟨by simp, fun _ => ⟨k, w, hT.active (.inr (by rw [hth]; simp)), ?_, fun _ _ hne => th_setTh_ne _ _ hne⟩⟩
    rw [hs', hth]
    simp only [rank]
    omega
  | @store k w t i hth hle hlt =>
    refine ⟨by simp, fun _ => ⟨k, w, hT.active (.inr (by rw [hth]; simp)), ?_, fun _ _ hne => th_setTh_ne _ _ hne⟩⟩
    rw [hs', hth]
    simp only [rank]
    omega
  | @enter k w t i n rc buf hth hcall =>
    have hb := hT.bsy k w t (by rw [hth]) (by rw [hth]; trivial)
    refine ⟨by simp, fun _ => ⟨k, w, hT.active (.inr (by rw [hth]; simp)), ?_, fun _ _ hne => th_setTh_ne _ _ hne⟩⟩
    rw [hs', hth]
    rw [hth] at hb
    simp only at hb
    simp only [rank]
    omega
  | scratch => exact ⟨fun _ => rfl, by simp⟩
  | @leave k w t i n rc buf hth =>
    have hb := hT.bsy k w t (by rw [hth]) (by rw [hth]; trivial)
    obtain ⟨rfl, -, -⟩ := h.ins k w rc n buf (by rw [hth])
    refine ⟨by simp, fun _ => ⟨k, w, hT.active (.inr (by rw [hth]; simp)), ?_, fun _ _ hne => th_setTh_ne _ _ hne⟩⟩
    rw [hs', hth, if_pos rfl]
    rw [hth] at hb
    simp only at hb
    simp only [rank]
    omega
  | @report k w t i hth =>
    exact absurd (by rw [hth]) (hT.rep k w)

theorem sum_lt {α : Type} (f g : α → Nat) : ∀ l : List α, (∀ x ∈ l, f x ≤ g x) → (∃ x ∈ l, f x < g x) → (l.map f).sum < (l.map g).sum := by
  intro l
  induction l with
  | nil => rintro _ ⟨_, h, _⟩; cases h
  | cons y l ih =>
    rintro h ⟨x, hx, hlt⟩
    have hle : ∀ l : List α, (∀ x ∈ l, f x ≤ g x) → (l.map f).sum ≤ (l.map g).sum := by
      intro l
      induction l with
      | nil => intro _; exact Nat.le_refl _
      | cons y l ih =>
        intro h
        have := ih fun x hx => h x (List.mem_cons_of_mem _ hx)
        have := h y (List.mem_cons_self ..)
        simp only [List.map_cons, List.sum_cons]; omega
    have h1 := h y (List.mem_cons_self ..)
    have h2 := hle l fun x hx => h x (List.mem_cons_of_mem _ hx)
    simp only [List.map_cons, List.sum_cons]
    rcases List.mem_cons.1 hx with rfl | hx
    · omega
    · have := ih (fun x hx => h x (List.mem_cons_of_mem _ hx)) ⟨x, hx, hlt⟩
      omega

/-- Steps before all threads together -/
def total (cpc : Nat) (ts : List Nat) (s : PgSys) : Nat :=
  ((List.range ts.length).map fun k => ((List.range (T ts k)).map fun w => rank cpc (s.th k w)).sum).sum

theorem total_step (hF : Fits ts N cpn cpc E) (hph : Phase d f g a N cpn E Stat P Q Res) {s s' : PgSys} {b : Bool}
    (hT : TInv ts cpc s) (h : MInv d N cpc Stat P Q Res s) (hs : PgStep d f g a stop cpc s s' b) :
    total cpc ts s' + (if b then 0 else 1) ≤ total cpc ts s := by
  obtain ⟨r1, r2⟩ := rank_step hF hph hT h hs
  cases b with
  | true =>
    unfold total
    rw [r1 rfl]
    simp
  | false =>
    obtain ⟨k, w, hw, hlt, hne⟩ := r2 rfl
    have hk : k < ts.length := by
      by_contra hn
      have : T ts k = 0 := by
        unfold T
        rw [List.getD_eq_getElem?_getD, List.getElem?_eq_none (by omega)]
        rfl
      omega
    have hle : ∀ k' w', rank cpc (s'.th k' w') ≤ rank cpc (s.th k' w') := by
      intro k' w'
      by_cases hc : k' = k ∧ w' = w
      · rw [hc.1, hc.2]; exact Nat.le_of_lt hlt
      · rw [hne k' w' hc]
    have hsum : ∀ k', ((List.range (T ts k')).map fun w => rank cpc (s'.th k' w)).sum ≤
        ((List.range (T ts k')).map fun w => rank cpc (s.th k' w)).sum := by
      intro k'
      by_cases hk' : k' = k
      · subst hk'
        exact Nat.le_of_lt (sum_lt _ _ _ (fun x _ => hle k' x) ⟨w, List.mem_range.2 hw, hlt⟩)
      · have : ∀ x, s'.th k' x = s.th k' x := fun x => hne k' x (by rintro ⟨h, -⟩; exact hk' h)
        simp only [this]
        exact Nat.le_refl _
    have := sum_lt (fun k' => ((List.range (T ts k')).map fun w => rank cpc (s'.th k' w)).sum)
      (fun k' => ((List.range (T ts k')).map fun w => rank cpc (s.th k' w)).sum) (List.range ts.length) (fun x _ => hsum x)
      ⟨k, List.mem_range.2 hk, sum_lt _ _ _ (fun x _ => hle k x) ⟨w, List.mem_range.2 hw, hlt⟩⟩
    unfold total
    simp only [Bool.false_eq_true, if_false]
    exact this

theorem exec_bound (hF : Fits ts N cpn cpc E) (hph : Phase d f g a N cpn E Stat P Q Res) {s₀ s : PgSys} {n : Nat}
    (hT : TInv ts cpc s₀) (h : MInv d N cpc Stat P Q Res s₀) (hs : PgExec d f g a stop cpc s₀ n s) :
    total cpc ts s + n ≤ total cpc ts s₀ := by
  induction hs with
  | init => exact Nat.le_refl _
  | @step n s s' b he hst ih =>
    obtain ⟨i1, i2⟩ := inv_exec hF hph hT h he
    have := total_step hF hph i1 i2 hst
    cases b <;> simp at this ⊢ <;> omega

theorem exec_trans {s₀ s s' : PgSys} {n m : Nat} (h1 : PgExec d f g a stop cpc s₀ n s) (h2 : PgExec d f g a stop cpc s m s') :
    PgExec d f g a stop cpc s₀ (n + m) s' := by
  induction h2 with
  | init => exact h1
  | @step m s1 s2 b _ hst ih =>
    have := PgExec.step ih hst
    cases b
    · simpa [Nat.add_assoc] using this
    · simpa using this

/-- Every execution can be completed. -/
theorem exec_finish (hF : Fits ts N cpn cpc E) (hph : Phase d f g a N cpn E Stat P Q Res) :
    ∀ (r : Nat) {s : PgSys}, TInv ts cpc s → MInv d N cpc Stat P Q Res s → total cpc ts s ≤ r →
      ∃ n s', PgExec d f g a stop cpc s n s' ∧ s'.Done := by
  intro r
  induction r with
  | zero =>
    intro s hT h hr
    by_cases hd : s.Done
    · exact ⟨0, s, .init, hd⟩
    · simp only [PgSys.Done, not_forall] at hd
      obtain ⟨k, w, hd⟩ := hd
      obtain ⟨s', hst, -⟩ := can_step (stop := stop) hF hph hT h hd
      have := total_step hF hph hT h hst
      simp at this
      omega
  | succ r ih =>
    intro s hT h hr
    by_cases hd : s.Done
    · exact ⟨0, s, .init, hd⟩
    · simp only [PgSys.Done, not_forall] at hd
      obtain ⟨k, w, hd⟩ := hd
      obtain ⟨s', hst, -⟩ := can_step (stop := stop) hF hph hT h hd
      have ht := total_step hF hph hT h hst
      simp at ht
      obtain ⟨i1, i2⟩ := inv_step hF hph hT h hst
      obtain ⟨n, s'', he, hdone⟩ := ih i1 i2 (by omega)
      exact ⟨_, s'', exec_trans (.step .init hst) he, hdone⟩

end
end PgI
end Lib842
