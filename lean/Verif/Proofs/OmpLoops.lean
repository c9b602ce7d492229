import Verif.Proofs.OmpInterleave
import Verif.Proofs.Sample
/-!
# What the iterations of the sample's OpenMP loops do
-/

namespace Lib842
open Spec

section
variable {L : OmpLayout} {e : Nat → Option Errno} {y : Nat → List Byte} {w : Nat → List Nat} {b₀ : List Byte} {z₀ : List Nat}

theorem omp_loop {step num : Nat} {body : Nat → OmpProg} (hL : L.Ok b₀.length z₀.length) (hT : ∀ t, t < L.T ↔ step * t < num)
    (hd : ∀ t < L.T, (body (step * t)).Does (L.B t) (L.Z t) (e t) (y t) (w t) (slot b₀ (L.B t) (L.LB t)) (slot z₀ (L.Z t) (L.LZ t))) :
    OmpSafe (ompLoop step num body b₀ z₀) ∧ ∀ s, OmpReach (ompLoop step num body b₀ z₀) s → OmpDone s →
      s.buf.length = b₀.length ∧ s.sizes.length = z₀.length ∧
      (∀ t < L.T, slot s.buf (L.B t) (L.LB t) = y t ∧ slot s.sizes (L.Z t) (L.LZ t) = w t) ∧ OmpReports L.T e s ∧
      ∀ j, (∀ t < L.T, j < L.B t ∨ L.B t + L.LB t ≤ j) → s.buf[j]? = b₀[j]? := by
  have h0 : OmpInv L e y w b₀ z₀ (ompLoop step num body b₀ z₀) := by
    have hth : ∀ t, t < L.T → (ompLoop step num body b₀ z₀).th t = body (step * t) := fun t ht => if_pos ((hT t).1 ht)
    have hid : ∀ t, L.T ≤ t → (ompLoop step num body b₀ z₀).th t = .done := fun t ht =>
      if_neg fun hx => by have := (hT t).2 hx; omega
    refine ⟨rfl, rfl, hid, fun t ht => .inl ?_, .inl ⟨rfl, rfl, fun t x => ?_⟩, fun _ _ => rfl, fun _ _ => rfl⟩
    · rw [hth t ht]
      exact hd t ht
    · by_cases ht : t < L.T
      · rw [hth t ht]; exact (hd t ht).not_report x
      · rw [hid t (by omega)]; simp
  refine ⟨fun s hs => ?_, fun s hs hdone => ?_⟩
  · have hi := h0.reach hL hs
    refine ⟨hi.no_fault hL, hi.no_race hL, ?_⟩
    exact OmpReach.run_all L.T hi.idle fun s' hs' => (hi.reach hL hs').no_fault hL
  · have hi := h0.reach hL hs
    obtain ⟨f1, f2⟩ := hi.finished hdone
    exact ⟨hi.blen, hi.zlen, f1, f2, hi.frameB⟩

end

/-! ## Parts of the iterations -/

section
variable {B k : Nat} {e : Option Errno} {y : List Byte} {w : List Nat}

theorem does_fill {next : OmpProg} {b : List Byte} : ∀ (cs : List Nat) {z : List Nat}, (∀ c ∈ cs, c < z.length) →
    next.Does B k e y w b (cs.foldl (fun z c => z.set c 65536) z) → (ompFill k cs next).Does B k e y w b z
  | [], z, _, h => h
  | c :: cs, z, hb, h => by
    have hc := hb c List.mem_cons_self
    have hs : splice z (k + c - k) [65536] = z.set c 65536 := by
      rw [set_eq_splice hc, Nat.add_sub_cancel_left]
    refine ⟨by omega, by omega, ?_⟩
    show (ompFill k cs next).Does B k e y w b (splice z (k + c - k) [65536])
    rw [hs]
    exact does_fill cs (fun c' h' => by rw [List.length_set]; exact hb c' (List.mem_cons_of_mem _ h')) h

theorem foldl_set {v : Nat} : ∀ (cs : List Nat) (z : List Nat),
    (cs.foldl (fun z c => z.set c v) z).length = z.length ∧
    ∀ j, (cs.foldl (fun z c => z.set c v) z)[j]? = if j ∈ cs ∧ j < z.length then some v else z[j]?
  | [], z => ⟨rfl, fun j => by simp⟩
  | c :: cs, z => by
    obtain ⟨h1, h2⟩ := foldl_set (v := v) cs (z.set c v)
    refine ⟨by rw [List.foldl_cons, h1, List.length_set], fun j => ?_⟩
    rw [List.foldl_cons, h2, List.length_set, List.getElem?_set]
    by_cases hj : j ∈ cs ∧ j < z.length
    · rw [if_pos hj, if_pos ⟨List.mem_cons_of_mem _ hj.1, hj.2⟩]
    · rw [if_neg hj]
      by_cases hc : c = j
      · subst hc
        by_cases hl : c < z.length
        · rw [if_pos rfl, if_pos hl, if_pos ⟨List.mem_cons_self, hl⟩]
        · rw [if_pos rfl, if_neg hl, if_neg (by omega), List.getElem?_eq_none (by omega)]
      · rw [if_neg hc, if_neg (by
          rintro ⟨h3, h4⟩
          rcases List.mem_cons.1 h3 with h5 | h5
          · exact hc h5.symm
          · exact hj ⟨h5, h4⟩)]

theorem foldl_set_range {n v : Nat} {z : List Nat} (hz : z.length = n) :
    (List.range n).foldl (fun z c => z.set c v) z = List.replicate n v := by
  obtain ⟨h1, h2⟩ := foldl_set (v := v) (List.range n) z
  apply List.ext_getElem?
  intro j
  rw [h2, List.getElem?_replicate, hz]
  by_cases h : j < n
  · rw [if_pos ⟨List.mem_range.2 h, h⟩, if_pos h]
  · rw [if_neg (by omega), if_neg h, List.getElem?_eq_none (by omega)]

/-- The sizes after the loop that marks the chunks with `-ENOSPC` -/
def markAll (rets : List (Option Errno)) (cs : List Nat) (z : List Nat) : List Nat :=
  cs.foldl (fun z c => if rets[c]? = some (some Errno.ENOSPC) then z.set c SIZE_MAX else z) z

theorem does_mark {rets : List (Option Errno)} {next : OmpProg} {b : List Byte} : ∀ (cs : List Nat) {z : List Nat},
    (∀ c ∈ cs, c < z.length ∧ c < rets.length) →
    next.Does B k e y w b (markAll rets cs z) → (ompMark k rets cs next).Does B k e y w b z
  | [], z, _, h => h
  | c :: cs, z, hb, h => by
    obtain ⟨hc, hr⟩ := hb c List.mem_cons_self
    have hcs : ∀ c' ∈ cs, c' < z.length ∧ c' < rets.length := fun c' h' => hb c' (List.mem_cons_of_mem _ h')
    have hrc : rets[c]? = some rets[c] := List.getElem?_eq_getElem hr
    show (match rets[c]? with
      | none => OmpProg.ub
      | some r => if r = some Errno.ENOSPC then .size (k + c) SIZE_MAX (ompMark k rets cs next) else ompMark k rets cs next).Does B k e y w b z
    have h' : next.Does B k e y w b (markAll rets cs (if rets[c]? = some (some Errno.ENOSPC) then z.set c SIZE_MAX else z)) := h
    rw [hrc] at h' ⊢
    simp only [Option.some.injEq] at h' ⊢
    by_cases he : rets[c] = some Errno.ENOSPC
    · rw [if_pos he] at h' ⊢
      refine ⟨by omega, by omega, ?_⟩
      show (ompMark k rets cs next).Does B k e y w b (splice z (k + c - k) [SIZE_MAX])
      rw [Nat.add_sub_cancel_left, ← set_eq_splice hc]
      exact does_mark cs (fun c' h' => by rw [List.length_set]; exact hcs c' h') h'
    · rw [if_neg he] at h' ⊢
      exact does_mark cs hcs h'

theorem markAll_get {rets : List (Option Errno)} : ∀ (cs : List Nat) (z : List Nat),
    (markAll rets cs z).length = z.length ∧
    ∀ j, (markAll rets cs z)[j]? = if j ∈ cs ∧ j < z.length ∧ rets[j]? = some (some Errno.ENOSPC) then some SIZE_MAX else z[j]?
  | [], z => ⟨rfl, fun j => by simp [markAll]⟩
  | c :: cs, z => by
    have he : markAll rets (c :: cs) z = markAll rets cs (if rets[c]? = some (some Errno.ENOSPC) then z.set c SIZE_MAX else z) := rfl
    obtain ⟨h1, h2⟩ := markAll_get (rets := rets) cs (if rets[c]? = some (some Errno.ENOSPC) then z.set c SIZE_MAX else z)
    have hl : (if rets[c]? = some (some Errno.ENOSPC) then z.set c SIZE_MAX else z).length = z.length := by
      split
      · rw [List.length_set]
      · rfl
    rw [he]
    refine ⟨h1.trans hl, fun j => ?_⟩
    rw [h2, hl]
    by_cases hj : j ∈ cs ∧ j < z.length ∧ rets[j]? = some (some Errno.ENOSPC)
    · rw [if_pos hj, if_pos ⟨List.mem_cons_of_mem _ hj.1, hj.2⟩]
    · rw [if_neg hj]
      by_cases hc : c = j
      · subst hc
        by_cases hr : rets[c]? = some (some Errno.ENOSPC)
        · rw [if_pos hr, List.getElem?_set, if_pos rfl]
          by_cases hl : c < z.length
          · rw [if_pos hl, if_pos ⟨List.mem_cons_self, hl, hr⟩]
          · rw [if_neg hl, if_neg (by omega), List.getElem?_eq_none (by omega)]
        · rw [if_neg hr, if_neg (fun hx => hr hx.2.2)]
      · have hx : ¬ (j ∈ c :: cs ∧ j < z.length ∧ rets[j]? = some (some Errno.ENOSPC)) := by
          rintro ⟨h3, h4⟩
          rcases List.mem_cons.1 h3 with h5 | h5
          · exact hc h5.symm
          · exact hj ⟨h5, h4⟩
        rw [if_neg hx]
        by_cases hr : rets[c]? = some (some Errno.ENOSPC)
        · rw [if_pos hr, List.getElem?_set, if_neg hc]
        · rw [if_neg hr]

/-- The parts of the two arrays after the loop that copies the chunks that are not compressed -/
def copyAll (inp : List Byte) (csizes : List Nat) (k : Nat) (cs : List Nat) (m : List Byte × List Nat) : List Byte × List Nat :=
  cs.foldl (fun m c => if csizes[k + c]? = some SIZE_MAX then (splice m.1 (65536 * c) (chunkOf inp (k + c)), m.2.set c 65536) else m) m

theorem readBytes_chunkOf {inp : List Byte} {i : Nat} (h : (i + 1) * 65536 ≤ inp.length) :
    readBytes inp (sampleChunk * i) sampleChunk = some (chunkOf inp i) := by
  unfold sampleChunk
  rw [readBytes_ok (by omega)]
  unfold chunkOf
  rw [Nat.mul_comm 65536 i]

theorem does_copy {inp : List Byte} {csizes : List Nat} {next : OmpProg} : ∀ (cs : List Nat) {b : List Byte} {z : List Nat},
    (∀ c ∈ cs, c < z.length ∧ 65536 * (c + 1) ≤ b.length ∧ k + c < csizes.length ∧ (k + c + 1) * 65536 ≤ inp.length) →
    next.Does (65536 * k) k e y w (copyAll inp csizes k cs (b, z)).1 (copyAll inp csizes k cs (b, z)).2 →
    (ompCopy inp csizes k cs next).Does (65536 * k) k e y w b z
  | [], b, z, _, h => h
  | c :: cs, b, z, hb, h => by
    obtain ⟨hc, hbl, hr, hi⟩ := hb c List.mem_cons_self
    have hcs : ∀ c' ∈ cs, c' < z.length ∧ 65536 * (c' + 1) ≤ b.length ∧ k + c' < csizes.length ∧ (k + c' + 1) * 65536 ≤ inp.length :=
      fun c' h' => hb c' (List.mem_cons_of_mem _ h')
    have hrc : csizes[k + c]? = some csizes[k + c] := List.getElem?_eq_getElem hr
    have hlen : (chunkOf inp (k + c)).length = 65536 := length_chunkOf hi
    have hcp : copyAll inp csizes k (c :: cs) (b, z) = copyAll inp csizes k cs
      (if csizes[k + c]? = some SIZE_MAX then (splice b (65536 * c) (chunkOf inp (k + c)), z.set c 65536) else (b, z)) := rfl
    show (match csizes[k + c]? with
      | none => OmpProg.ub
      | some n =>
        if n = SIZE_MAX then
          .call (sampleChunk * (k + c)) sampleChunk (k + c) 0
            (fun _ _ => (readBytes inp (sampleChunk * (k + c)) sampleChunk).map fun bs => (bs, [], ⟨none, []⟩))
            fun _ => .size (c + k) sampleChunk (ompCopy inp csizes k cs next)
        else ompCopy inp csizes k cs next).Does (65536 * k) k e y w b z
    rw [hcp] at h
    rw [hrc] at h ⊢
    simp only [Option.some.injEq] at h ⊢
    by_cases he : csizes[k + c] = SIZE_MAX
    · rw [if_pos he] at h ⊢
      refine ⟨by unfold sampleChunk; omega, by unfold sampleChunk; omega, by omega, by omega, chunkOf inp (k + c), [], ⟨none, []⟩, ?_, hlen, rfl, ?_⟩
      · rw [readBytes_chunkOf hi]; rfl
      · have e1 : sampleChunk * (k + c) - 65536 * k = 65536 * c := by unfold sampleChunk; omega
        refine ⟨by omega, by rw [splice_nil]; omega, ?_⟩
        rw [e1, splice_nil, show c + k - k = c by omega, ← set_eq_splice hc]
        refine does_copy cs (fun c' h' => ?_) h
        rw [List.length_set, length_splice (by omega)]
        exact hcs c' h'
    · rw [if_neg he] at h ⊢
      exact does_copy cs hcs h

theorem copyAll_get {inp : List Byte} {csizes : List Nat} : ∀ (cs : List Nat) (b : List Byte) (z : List Nat),
    (∀ c ∈ cs, c < z.length ∧ 65536 * (c + 1) ≤ b.length ∧ (k + c + 1) * 65536 ≤ inp.length) →
    (copyAll inp csizes k cs (b, z)).1.length = b.length ∧ (copyAll inp csizes k cs (b, z)).2.length = z.length ∧
    ∀ j, (j ∈ cs ∧ csizes[k + j]? = some SIZE_MAX → chunkOf (copyAll inp csizes k cs (b, z)).1 j = chunkOf inp (k + j) ∧
        (copyAll inp csizes k cs (b, z)).2[j]? = some 65536) ∧
      (¬ (j ∈ cs ∧ csizes[k + j]? = some SIZE_MAX) → chunkOf (copyAll inp csizes k cs (b, z)).1 j = chunkOf b j ∧
        (copyAll inp csizes k cs (b, z)).2[j]? = z[j]?)
  | [], b, z, _ => ⟨rfl, rfl, fun j => ⟨fun h => (by cases h.1), fun _ => ⟨rfl, rfl⟩⟩⟩
  | c :: cs, b, z, hb => by
    obtain ⟨hc, hbl, hi⟩ := hb c List.mem_cons_self
    have hcs : ∀ c' ∈ cs, c' < z.length ∧ 65536 * (c' + 1) ≤ b.length ∧ (k + c' + 1) * 65536 ≤ inp.length :=
      fun c' h' => hb c' (List.mem_cons_of_mem _ h')
    have hlen : (chunkOf inp (k + c)).length = 65536 := length_chunkOf hi
    have hcp : copyAll inp csizes k (c :: cs) (b, z) = copyAll inp csizes k cs
      (if csizes[k + c]? = some SIZE_MAX then (splice b (65536 * c) (chunkOf inp (k + c)), z.set c 65536) else (b, z)) := rfl
    rw [hcp]
    by_cases he : csizes[k + c]? = some SIZE_MAX
    · rw [if_pos he]
      have hsp : (splice b (65536 * c) (chunkOf inp (k + c))).length = b.length := length_splice (by omega)
      obtain ⟨h1, h2, h3⟩ := copyAll_get (inp := inp) (csizes := csizes) cs (splice b (65536 * c) (chunkOf inp (k + c))) (z.set c 65536)
        (fun c' h' => by rw [List.length_set, hsp]; exact hcs c' h')
      refine ⟨h1.trans hsp, h2.trans List.length_set, fun j => ⟨fun hj => ?_, fun hj => ?_⟩⟩
      · by_cases hjc : j ∈ cs
        · exact (h3 j).1 ⟨hjc, hj.2⟩
        · have hjc' : j = c := by
            rcases List.mem_cons.1 hj.1 with h | h
            · exact h
            · exact absurd h hjc
          subst hjc'
          obtain ⟨g1, g2⟩ := (h3 j).2 (fun h => hjc h.1)
          refine ⟨?_, ?_⟩
          · rw [g1]
            show slot (splice b (65536 * j) _) (j * 65536) 65536 = _
            rw [Nat.mul_comm 65536 j, slot_splice (by omega) (Nat.le_refl _) (by omega), Nat.sub_self]
            have hsl : (slot b (j * 65536) 65536).length = 65536 := length_slot (by omega)
            apply List.ext_getElem?
            intro i
            rw [getElem?_splice (by omega)]
            by_cases hi' : i < 65536
            · rw [if_pos (by omega)]; rfl
            · rw [if_neg (by omega), List.getElem?_eq_none (by omega), List.getElem?_eq_none (by omega)]
          · rw [g2, List.getElem?_set, if_pos rfl, if_pos hc]
      · obtain ⟨g1, g2⟩ := (h3 j).2 (fun h => hj ⟨List.mem_cons_of_mem _ h.1, h.2⟩)
        have hjc : c ≠ j := fun h => hj ⟨by rw [h]; exact List.mem_cons_self, by rw [← h]; exact he⟩
        refine ⟨?_, ?_⟩
        · rw [g1]
          exact slot_splice_ne (by omega) (by omega)
        · rw [g2, List.getElem?_set, if_neg hjc]
    · rw [if_neg he]
      obtain ⟨h1, h2, h3⟩ := copyAll_get (inp := inp) (csizes := csizes) cs b z hcs
      refine ⟨h1, h2, fun j => ⟨fun hj => (h3 j).1 ⟨?_, hj.2⟩, fun hj => (h3 j).2 fun h => hj ⟨List.mem_cons_of_mem _ h.1, h.2⟩⟩⟩
      rcases List.mem_cons.1 hj.1 with h | h
      · exact absurd (h ▸ hj.2) he
      · exact h

theorem does_end {b : List Byte} {z : List Nat} : (ompEnd e).Does B k e b z b z := by
  cases e with
  | none => exact ⟨rfl, rfl, rfl⟩
  | some x => exact ⟨rfl, rfl, rfl⟩

end

theorem chunkOf_slot {b : List Byte} {k n c : Nat} (hc : c < n) :
    chunkOf (slot b (65536 * k) (65536 * n)) c = chunkOf b (k + c) := by
  have := slot_slot (l := b) (lo := 65536 * k) (len := 65536 * n) (i := (k + c) * 65536) (n := 65536) (by omega) (by omega)
  rw [show (k + c) * 65536 - 65536 * k = c * 65536 by omega] at this
  exact this

/-- The layout of the loops over batches of 16 chunks -/
def batchLayout (num : Nat) : OmpLayout where
  T := (num + 15) / 16
  B t := 65536 * (16 * t)
  LB t := 65536 * batchChunks num (16 * t)
  Z t := 16 * t
  LZ t := batchChunks num (16 * t)

theorem batchLayout_ok {num nb nz : Nat} (hb : num * 65536 ≤ nb) (hz : num ≤ nz) : (batchLayout num).Ok nb nz := by
  refine ⟨fun t ht => ?_, fun t ht => ?_, fun t ht u hu hne => ?_, fun t ht u hu hne => ?_⟩ <;>
  · have h1 := batchChunks_le num (16 * t)
    simp only [batchLayout] at *
    try have h2 := batchChunks_le num (16 * u)
    omega

theorem batchLayout_T {num t : Nat} : t < (batchLayout num).T ↔ 16 * t < num := by
  simp only [batchLayout]; omega

/-- One iteration of the compression loop -/
theorem ompCompBatch_does {cc : ChunkedFn} {ain aout num k : Nat} {inp b : List Byte} {z : List Nat}
    {rets0 : Nat → List (Option Errno)} {out : List Byte} {olens : List Nat} {r : LibRet}
    (hb : b.length = 65536 * batchChunks num k) (hz : z.length = batchChunks num k)
    (hc : ompCompCall cc ain aout inp num rets0 k b (List.replicate (batchChunks num k) 65536) = some (out, olens, r))
    (ho : out.length = 65536 * batchChunks num k) (hol : olens.length = batchChunks num k)
    (hr : r.err = none → batchChunks num k ≤ r.rets.length) :
    (ompCompBatch cc ain aout inp num rets0 k).Does (65536 * k) k r.err out
      (if r.err = none then markAll r.rets (List.range (batchChunks num k)) olens else olens) b z := by
  unfold ompCompBatch
  generalize hn : batchChunks num k = n at *
  refine does_fill _ (fun c hc => by have := List.mem_range.1 hc; omega) ?_
  rw [foldl_set_range hz]
  have hsl : slot b (sampleChunk * k - 65536 * k) (sampleChunk * n) = b := by
    unfold slot sampleChunk
    rw [Nat.sub_self, List.drop_zero, List.take_of_length_le (by omega)]
  have hsl2 : slot (List.replicate n 65536) (k - k) n = List.replicate n 65536 := by
    unfold slot
    rw [Nat.sub_self, List.drop_zero, List.take_of_length_le (by rw [List.length_replicate])]
  have hsp : splice b (sampleChunk * k - 65536 * k) out = out := by
    unfold splice sampleChunk
    rw [Nat.sub_self, List.take_zero, List.nil_append, List.drop_of_length_le (by omega), List.append_nil]
  have hsp2 : splice (List.replicate n 65536) (k - k) olens = olens := by
    unfold splice
    rw [Nat.sub_self, List.take_zero, List.nil_append, List.drop_of_length_le (by rw [List.length_replicate]; omega), List.append_nil]
  refine ⟨by unfold sampleChunk; omega, by unfold sampleChunk; omega, Nat.le_refl _, by rw [List.length_replicate],
    out, olens, r, by rw [hsl, hsl2]; exact hc, ho, hol, ?_⟩
  rw [hsp, hsp2]
  show (if r.err = none then ompMark k r.rets (List.range n) .done else ompEnd r.err).Does _ _ _ _ _ _ _
  by_cases he : r.err = none
  · rw [if_pos he, if_pos he, he]
    exact does_mark _ (fun c hc => by have := List.mem_range.1 hc; have := hr he; omega) ⟨rfl, rfl, rfl⟩
  · rw [if_neg he, if_neg he]
    exact does_end

/-- One iteration of the decompression loop -/
theorem ompDecompBatch_does {cd : ChunkedFn} {aout adec num k : Nat} {inp cmp b : List Byte} {z csizes : List Nat}
    {rets0 : Nat → List (Option Errno)} {out : List Byte} {olens : List Nat} {r : LibRet} (hk : k < num)
    (hin : num * 65536 ≤ inp.length) (hcs : csizes.length = num)
    (hb : b.length = 65536 * batchChunks num k) (hz : z.length = batchChunks num k)
    (hc : ompDecompCall cd aout adec cmp csizes num rets0 k b (List.replicate (batchChunks num k) 65536) = some (out, olens, r))
    (ho : out.length = 65536 * batchChunks num k) (hol : olens.length = batchChunks num k) :
    (ompDecompBatch cd aout adec inp cmp csizes num rets0 k).Does (65536 * k) k r.err
      (copyAll inp csizes k (List.range (batchChunks num k)) (out, olens)).1
      (copyAll inp csizes k (List.range (batchChunks num k)) (out, olens)).2 b z := by
  unfold ompDecompBatch
  obtain ⟨-, hn', -⟩ := batchChunks_le num k
  generalize hn : batchChunks num k = n at *
  refine does_fill _ (fun c hc => by have := List.mem_range.1 hc; omega) ?_
  rw [foldl_set_range hz]
  have hsl : slot b (sampleChunk * k - 65536 * k) (sampleChunk * n) = b := by
    unfold slot sampleChunk
    rw [Nat.sub_self, List.drop_zero, List.take_of_length_le (by omega)]
  have hsl2 : slot (List.replicate n 65536) (k - k) n = List.replicate n 65536 := by
    unfold slot
    rw [Nat.sub_self, List.drop_zero, List.take_of_length_le (by rw [List.length_replicate])]
  have hsp : splice b (sampleChunk * k - 65536 * k) out = out := by
    unfold splice sampleChunk
    rw [Nat.sub_self, List.take_zero, List.nil_append, List.drop_of_length_le (by omega), List.append_nil]
  have hsp2 : splice (List.replicate n 65536) (k - k) olens = olens := by
    unfold splice
    rw [Nat.sub_self, List.take_zero, List.nil_append, List.drop_of_length_le (by rw [List.length_replicate]; omega), List.append_nil]
  refine ⟨by unfold sampleChunk; omega, by unfold sampleChunk; omega, Nat.le_refl _, by rw [List.length_replicate],
    out, olens, r, by rw [hsl, hsl2]; exact hc, ho, hol, ?_⟩
  rw [hsp, hsp2]
  refine does_copy _ (fun c hc => ?_) does_end
  have := List.mem_range.1 hc
  omega

end Lib842
