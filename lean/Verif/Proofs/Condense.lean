import Verif.Model.Condense
import Verif.Proofs.Sample
/-!
# Variants of the sample program: helper lemmas
-/

namespace Lib842
open Lib842.Props

theorem readBytes_chunk {m : List Byte} {i num : Nat} (hi : i < num) (h : num * 65536 ≤ m.length) :
    readBytes m (sampleChunk * i) sampleChunk = some (chunkOf m i) := by
  have := (chunk_le hi h).1
  unfold readBytes
  rw [if_pos (by unfold sampleChunk; omega)]
  unfold chunkOf sampleChunk
  rw [Nat.mul_comm]

theorem fillOne {sizes : List Nat} {k : Nat} (h : k < sizes.length) :
    ∃ l, fillSizes sizes k 1 sampleChunk = some l ∧ l.length = sizes.length ∧ l[k]? = some 65536 ∧
      ∀ i, i ≠ k → l[i]? = sizes[i]? := by
  obtain ⟨l, h1, h2, h3, h4⟩ := fillSizes_get (sizes := sizes) (k := k) (n := 1) (v := sampleChunk) (by omega)
  exact ⟨l, h1, h2, h3 0 (by omega), fun i hi => h4 i (by omega)⟩

/-- One iteration of the compression loop, single chunks. -/
theorem compOne_spec {f g : ChunkFn} (hc : SampleContract f g) {req pref ain aout num k : Nat} {inp : List Byte}
    (hk : k < num) (hin : num * 65536 ≤ inp.length) (m : OmpMem) (hb : m.buf.length = num * 65536) (hs : m.sizes.length = num) :
    ∃ m', compOne (Impl.trivial f g req pref) ain aout inp k m = .ok m' ∧ m'.success = m.success ∧
      m'.buf.length = num * 65536 ∧ m'.sizes.length = num ∧
      (∃ rc n b, f (ain + 65536 * k) (aout + 65536 * k) (chunkOf inp k) (chunkOf m.buf k) = .ret rc n b ∧
        m'.sizes[k]? = some (if rc = none then n else SIZE_MAX) ∧ chunkOf m'.buf k = b) ∧
      ∀ i, i ≠ k → m'.sizes[i]? = m.sizes[i]? ∧ chunkOf m'.buf i = chunkOf m.buf i := by
  have hbl : num * 65536 ≤ m.buf.length := by omega
  have l1 := length_chunkOf (data := inp) (i := k) (chunk_le hk hin).2
  have l2 := length_chunkOf (data := m.buf) (i := k) (chunk_le hk hbl).2
  obtain ⟨sz, s1, s2, s3, s4⟩ := fillOne (sizes := m.sizes) (k := k) (by omega)
  obtain ⟨rc, n, b, hf⟩ := hc.total (ain + 65536 * k) (aout + 65536 * k) _ _ l1 l2
  have hbl' : b.length = 65536 := (hc.fsize _ _ _ _ _ _ _ hf).trans l2
  obtain ⟨b', hw⟩ := writeBytes_some (m := m.buf) (bs := b) (i := 65536 * k) (by have := (chunk_le hk hbl).1; omega)
  obtain ⟨w1, w2, w3⟩ := writeBytes_chunk hbl' hw
  have hw' : writeBytes m.buf (sampleChunk * k) b = some b' := hw
  have hf' : f (ain + sampleChunk * k) (aout + sampleChunk * k) (chunkOf inp k) (chunkOf m.buf k) = .ret rc n b := hf
  have hp1 : ptrAdd (some inp) (sampleChunk * k) = .ok (some (inp.drop (sampleChunk * k))) :=
    ptrAdd_some (by have := (chunk_le hk hin).1; unfold sampleChunk; omega)
  have hp2 : ptrAdd (some m.buf) (sampleChunk * k) = .ok (some (m.buf.drop (sampleChunk * k))) :=
    ptrAdd_some (by have := (chunk_le hk hbl).1; unfold sampleChunk; omega)
  have r1 := readBytes_chunk hk hin
  have r2 : readBytes m.buf (sampleChunk * k) 65536 = some (chunkOf m.buf k) := readBytes_chunk hk hbl
  have hE : compOne (Impl.trivial f g req pref) ain aout inp k m =
      if rc = some .ENOSPC then .ok ⟨b', (sz.set k n).set k SIZE_MAX, m.success⟩
      else .ok ⟨b', sz.set k n, if rc = none then m.success else false⟩ := by
    unfold compOne
    simp only [hp1, hp2, s1, r1, s3, r2, BRes.access, bind, BRes.bind, Impl.trivial, hf', hw']
  cases rc with
  | none =>
    rw [if_neg (by simp), if_pos rfl] at hE
    refine ⟨_, hE, rfl, by show b'.length = _; omega, by show (sz.set k n).length = _; rw [List.length_set]; omega,
      ⟨none, n, b, hf, ?_, w2⟩, fun i hi => ⟨?_, w3 i hi⟩⟩
    · show (sz.set k n)[k]? = _
      rw [List.getElem?_set_self (by omega), if_pos rfl]
    · show (sz.set k n)[i]? = _
      rw [List.getElem?_set_ne (by omega), s4 i hi]
  | some er =>
    obtain rfl := hc.fails _ _ _ _ _ _ _ l1 l2 hf
    rw [if_pos rfl] at hE
    refine ⟨_, hE, rfl, by show b'.length = _; omega,
      by show ((sz.set k n).set k SIZE_MAX).length = _; rw [List.length_set, List.length_set]; omega,
      ⟨_, n, b, hf, ?_, w2⟩, fun i hi => ⟨?_, w3 i hi⟩⟩
    · show ((sz.set k n).set k SIZE_MAX)[k]? = _
      rw [List.getElem?_set_self (by rw [List.length_set]; omega), if_neg (by simp)]
    · show ((sz.set k n).set k SIZE_MAX)[i]? = _
      rw [List.getElem?_set_ne (by omega), List.getElem?_set_ne (by omega), s4 i hi]

/-- Several iterations of the compression loop, single chunks. -/
theorem compOneLoop_spec {f g : ChunkFn} (hc : SampleContract f g) {req pref ain aout num : Nat} {inp : List Byte}
    (hin : num * 65536 ≤ inp.length) :
    ∀ (ks : List Nat), (∀ k ∈ ks, k < num) → ks.Nodup → ∀ m : OmpMem, m.buf.length = num * 65536 → m.sizes.length = num →
    ∃ m', forEach (compOne (Impl.trivial f g req pref) ain aout inp) ks m = .ok m' ∧
      m'.success = m.success ∧ m'.buf.length = num * 65536 ∧ m'.sizes.length = num ∧
      (∀ i ∈ ks, ∃ rc n b, f (ain + 65536 * i) (aout + 65536 * i) (chunkOf inp i) (chunkOf m.buf i) = .ret rc n b ∧
        m'.sizes[i]? = some (if rc = none then n else SIZE_MAX) ∧ chunkOf m'.buf i = b) ∧
      ∀ i, i ∉ ks → m'.sizes[i]? = m.sizes[i]? ∧ chunkOf m'.buf i = chunkOf m.buf i
  | [], _, _, m, hb, hs => ⟨m, rfl, rfl, hb, hs, fun i h => (by cases h), fun i _ => ⟨rfl, rfl⟩⟩
  | k :: ks, hks, hnd, m, hb, hs => by
    obtain ⟨m1, a1, a2, a3, a4, a5, a6⟩ := compOne_spec hc (req := req) (pref := pref) (ain := ain) (aout := aout)
      (hks k List.mem_cons_self) hin m hb hs
    obtain ⟨hnk, hnd'⟩ := List.nodup_cons.1 hnd
    obtain ⟨m2, b1, b2, b3, b4, b5, b6⟩ := compOneLoop_spec hc (req := req) (pref := pref) (ain := ain) (aout := aout) hin ks
      (fun k' hk' => hks k' (List.mem_cons_of_mem _ hk')) hnd' m1 a3 a4
    refine ⟨m2, ?_, b2.trans a2, b3, b4, fun i hmem => ?_, fun i hmem => ?_⟩
    · show BRes.bind (compOne (Impl.trivial f g req pref) ain aout inp k m) _ = _
      rw [a1]
      exact b1
    · rcases List.mem_cons.1 hmem with rfl | h
      · obtain ⟨rc, n, b, c1, c2, c3⟩ := a5
        obtain ⟨d1, d2⟩ := b6 i hnk
        exact ⟨rc, n, b, c1, d1.trans c2, d2.trans c3⟩
      · obtain ⟨rc, n, b, c1, c2, c3⟩ := b5 i h
        rw [(a6 i fun hx => hnk (hx ▸ h)).2] at c1
        exact ⟨rc, n, b, c1, c2, c3⟩
    · obtain ⟨c1, c2⟩ := a6 i fun hx => hmem (hx ▸ List.mem_cons_self)
      obtain ⟨d1, d2⟩ := b6 i fun hx => hmem (List.mem_cons_of_mem _ hx)
      exact ⟨d1.trans c1, d2.trans c2⟩

/-! ## Positions -/

theorem condPositions_get : ∀ (sizes : List Nat) (p i : Nat), p < 2 ^ 64 → i < sizes.length →
    (condPositions p sizes)[i]? = some ((p + (sizes.take i).sum) % 2 ^ 64)
  | [], _, _, _, h => by simp at h
  | n :: ns, p, 0, hp, _ => by
    show some p = _
    rw [List.take_zero, List.sum_nil, Nat.add_zero, Nat.mod_eq_of_lt hp]
  | n :: ns, p, i + 1, hp, h => by
    show (condPositions ((p + n) % 2 ^ 64) ns)[i]? = _
    rw [condPositions_get ns _ i (Nat.mod_lt _ (by decide)) (by simpa using h), List.take_succ_cons, List.sum_cons,
      Nat.mod_add_mod, Nat.add_assoc]

theorem length_condPositions : ∀ (sizes : List Nat) (p : Nat), (condPositions p sizes).length = sizes.length
  | [], _ => rfl
  | _ :: ns, _ => congrArg (· + 1) (length_condPositions ns _)

theorem take_sum_succ {l : List Nat} {i n : Nat} (h : l[i]? = some n) : (l.take (i + 1)).sum = (l.take i).sum + n := by
  rw [List.take_add_one, h, List.sum_append]
  simp

theorem take_sum_le (l : List Nat) {i j : Nat} (h : i ≤ j) : (l.take i).sum ≤ (l.take j).sum := by
  have h1 : l.take j = l.take i ++ (l.take j).drop i := by
    conv => lhs; rw [← List.take_append_drop i (l.take j)]
    rw [List.take_take, Nat.min_eq_left h]
  rw [h1, List.sum_append]
  omega

theorem take_sum_bound {l : List Nat} (h : ∀ n ∈ l, n ≤ 65536) : l.sum ≤ l.length * 65536 := by
  induction l with
  | nil => simp
  | cons a l ih =>
    have h1 := h a List.mem_cons_self
    have h2 := ih fun n hn => h n (List.mem_cons_of_mem _ hn)
    rw [List.sum_cons, List.length_cons, Nat.succ_mul]
    omega

/-- Positions of compressed chunks -/
theorem positions {sizes : List Nat} {num : Nat} (hl : sizes.length = num) (hnum : num * 65536 < 2 ^ 64)
    (hle : ∀ n ∈ sizes, n ≤ 65536) {i n : Nat} (hn : sizes[i]? = some n) :
    (condPositions 0 sizes)[i]? = some (sizes.take i).sum ∧ (sizes.take i).sum + n ≤ sizes.sum := by
  have hi : i < sizes.length := by
    rcases Nat.lt_or_ge i sizes.length with h | h
    · exact h
    · rw [List.getElem?_eq_none h] at hn; cases hn
  have h1 := take_sum_bound hle
  have h2 := take_sum_le sizes (show i + 1 ≤ sizes.length from hi)
  rw [take_sum_succ hn, List.take_length] at h2
  refine ⟨?_, h2⟩
  rw [condPositions_get sizes 0 i (by decide) hi, Nat.zero_add, Nat.mod_eq_of_lt]
  rw [hl] at h1
  omega

/-! ## Condensation -/

theorem condLoop_spec {out : List Byte} {sizes : List Nat} {num : Nat} (hl : sizes.length = num) (hnum : num * 65536 < 2 ^ 64)
    (hle : ∀ n ∈ sizes, n ≤ 65536) (hout : out.length = num * 65536) :
    ∀ (cs : List Nat), (∀ c ∈ cs, c < num) → ∀ cond : List Byte, cond.length = sizes.sum →
    ∃ cond', forEach (condenseChunk out (condPositions 0 sizes) sizes) cs cond = .ok cond' ∧ cond'.length = sizes.sum ∧
      ∀ i n, sizes[i]? = some n → ∀ j < n, cond'[(sizes.take i).sum + j]? =
        if i ∈ cs then out[65536 * i + j]? else cond[(sizes.take i).sum + j]?
  | [], _, cond, hc => ⟨cond, rfl, hc, fun i n _ j _ => by rw [if_neg (by simp)]⟩
  | c :: cs, h, cond, hc => by
    have hcn := h c List.mem_cons_self
    have hget : sizes[c]? = some sizes[c] := List.getElem?_eq_getElem (by omega)
    obtain ⟨p1, p2⟩ := positions hl hnum hle hget
    have hle' := hle _ (List.mem_of_getElem? hget)
    have hcl := (chunk_le hcn (Nat.le_of_eq hout.symm)).1
    have hrd : readBytes out (sampleChunk * c) sizes[c] = some ((out.drop (sampleChunk * c)).take sizes[c]) :=
      if_pos (by unfold sampleChunk; omega)
    have hrl : ((out.drop (sampleChunk * c)).take sizes[c]).length = sizes[c] := by
      rw [List.length_take, List.length_drop]; unfold sampleChunk; omega
    obtain ⟨cond1, hw⟩ := writeBytes_some (m := cond) (bs := (out.drop (sampleChunk * c)).take sizes[c])
      (i := (sizes.take c).sum) (by omega)
    obtain ⟨w1, w2⟩ := writeBytes_get hw
    obtain ⟨cond2, e1, e2, e3⟩ := condLoop_spec hl hnum hle hout cs (fun c' hc' => h c' (List.mem_cons_of_mem _ hc'))
      cond1 (by omega)
    have hp1 : ptrAdd (some out) (sampleChunk * c) = .ok (some (out.drop (sampleChunk * c))) :=
      ptrAdd_some (by unfold sampleChunk; omega)
    have hp2 : ptrAdd (some cond) (sizes.take c).sum = .ok (some (cond.drop (sizes.take c).sum)) :=
      ptrAdd_some (by omega)
    refine ⟨cond2, ?_, e2, fun i n hn j hj => ?_⟩
    · show BRes.bind (condenseChunk out (condPositions 0 sizes) sizes c cond) _ = _
      have : condenseChunk out (condPositions 0 sizes) sizes c cond = .ok cond1 := by
        unfold condenseChunk
        simp only [hp1, p1, hp2, hget, hrd, hw, BRes.access, bind, BRes.bind]
      rw [this]
      exact e1
    · rw [e3 i n hn j hj]
      by_cases hi : i ∈ cs
      · rw [if_pos hi, if_pos (List.mem_cons_of_mem _ hi)]
      · rw [if_neg hi, w2, hrl]
        by_cases hic : i = c
        · subst hic
          have hnv : sizes[i] = n := by rw [hget] at hn; exact Option.some.inj hn
          rw [if_pos (by omega), if_pos List.mem_cons_self, List.getElem?_take_of_lt (by omega), List.getElem?_drop]
          congr 1
          unfold sampleChunk; omega
        · have hnot : i ∉ c :: cs := by simp [hic, hi]
          rw [if_neg hnot, if_neg]
          rintro ⟨h1, h2⟩
          have q1 := take_sum_succ hn
          have q2 := take_sum_succ hget
          rcases Nat.lt_or_ge i c with hlt | hge
          · have := take_sum_le sizes (show i + 1 ≤ c from hlt)
            omega
          · have := take_sum_le sizes (show c + 1 ≤ i by omega)
            omega

/-! ## Decompression of single chunks -/

/-- What the decompression loop finds for chunk `i` with the data `x`: it is marked as not compressed, or `g` restores it
from what is stored at its position. -/
def PlacedChunk (g : ChunkFn) (comp : List Byte) (poss csizes : List Nat) (i : Nat) (x : List Byte) : Prop :=
  ∃ n pos, csizes[i]? = some n ∧ poss[i]? = some pos ∧ pos ≤ comp.length ∧ (n ≠ SIZE_MAX → pos + n ≤ comp.length ∧
    ∀ a o dst, dst.length = 65536 → g a o ((comp.drop pos).take n) dst = .ret none 65536 x)

theorem decompOne_spec {f g : ChunkFn} {req pref acomp adec num k : Nat} {inp comp : List Byte}
    {poss csizes : List Nat} (hk : k < num) (hin : inp.length = num * 65536)
    (hst : PlacedChunk g comp poss csizes k (chunkOf inp k))
    (m : OmpMem) (hb : m.buf.length = num * 65536) (hs : m.sizes.length = num) :
    ∃ m', decompOne (Impl.trivial f g req pref) acomp adec inp comp poss csizes k m = .ok m' ∧ m'.success = m.success ∧
      m'.buf.length = num * 65536 ∧ m'.sizes.length = num ∧
      m'.sizes[k]? = some 65536 ∧ chunkOf m'.buf k = chunkOf inp k ∧
      ∀ i, i ≠ k → m'.sizes[i]? = m.sizes[i]? ∧ chunkOf m'.buf i = chunkOf m.buf i := by
  obtain ⟨n, pos, h1, h2, h3, h4⟩ := hst
  have hbl : num * 65536 ≤ m.buf.length := by omega
  have hil : num * 65536 ≤ inp.length := by omega
  have l1 := length_chunkOf (data := inp) (i := k) (chunk_le hk hil).2
  have l2 := length_chunkOf (data := m.buf) (i := k) (chunk_le hk hbl).2
  obtain ⟨sz, s1, s2, s3, s4⟩ := fillOne (sizes := m.sizes) (k := k) (by omega)
  obtain ⟨b', hw⟩ := writeBytes_some (m := m.buf) (bs := chunkOf inp k) (i := 65536 * k) (by have := (chunk_le hk hbl).1; omega)
  obtain ⟨w1, w2, w3⟩ := writeBytes_chunk l1 hw
  have hw' : writeBytes m.buf (sampleChunk * k) (chunkOf inp k) = some b' := hw
  have hp1 : ptrAdd (some comp) pos = .ok (some (comp.drop pos)) := ptrAdd_some h3
  have hp2 : ptrAdd (some m.buf) (sampleChunk * k) = .ok (some (m.buf.drop (sampleChunk * k))) :=
    ptrAdd_some (by have := (chunk_le hk hbl).1; unfold sampleChunk; omega)
  have r1 := readBytes_chunk hk hil
  have r2 : readBytes m.buf (sampleChunk * k) 65536 = some (chunkOf m.buf k) := readBytes_chunk hk hbl
  refine ⟨⟨b', sz.set k 65536, m.success⟩, ?_, rfl, by show b'.length = _; omega,
    by show (sz.set k 65536).length = _; rw [List.length_set]; omega, ?_, w2, fun i hi => ⟨?_, w3 i hi⟩⟩
  · unfold decompOne
    simp only [h2, hp1, hp2, s1, h1, BRes.access, bind, BRes.bind]
    by_cases hn : n = SIZE_MAX
    · rw [if_neg (by simp [hn])]
      simp only [r1, hw']
      rfl
    · obtain ⟨h5, h6⟩ := h4 hn
      have r3 : readBytes comp pos n = some ((comp.drop pos).take n) := if_pos h5
      rw [if_pos hn]
      simp only [r3, s3, r2, Impl.trivial, h6 _ _ _ l2, hw']
  · show (sz.set k 65536)[k]? = _
    rw [List.getElem?_set_self (by omega)]
  · show (sz.set k 65536)[i]? = _
    rw [List.getElem?_set_ne (by omega), s4 i hi]

theorem decompOneLoop_spec {f g : ChunkFn} {req pref acomp adec num : Nat} {inp comp : List Byte}
    {poss csizes : List Nat} (hin : inp.length = num * 65536)
    (hst : ∀ i < num, PlacedChunk g comp poss csizes i (chunkOf inp i)) :
    ∀ (ks : List Nat), (∀ k ∈ ks, k < num) → ks.Nodup → ∀ m : OmpMem, m.buf.length = num * 65536 → m.sizes.length = num →
    ∃ m', forEach (decompOne (Impl.trivial f g req pref) acomp adec inp comp poss csizes) ks m = .ok m' ∧
      m'.success = m.success ∧ m'.buf.length = num * 65536 ∧ m'.sizes.length = num ∧
      (∀ i ∈ ks, m'.sizes[i]? = some 65536 ∧ chunkOf m'.buf i = chunkOf inp i) ∧
      ∀ i, i ∉ ks → m'.sizes[i]? = m.sizes[i]? ∧ chunkOf m'.buf i = chunkOf m.buf i
  | [], _, _, m, hb, hs => ⟨m, rfl, rfl, hb, hs, fun i h => (by cases h), fun i _ => ⟨rfl, rfl⟩⟩
  | k :: ks, hks, hnd, m, hb, hs => by
    obtain ⟨m1, a1, a2, a3, a4, a5, a5', a6⟩ := decompOne_spec (f := f) (req := req) (pref := pref) (acomp := acomp)
      (adec := adec) (hks k List.mem_cons_self) hin (hst k (hks k List.mem_cons_self)) m hb hs
    obtain ⟨hnk, hnd'⟩ := List.nodup_cons.1 hnd
    obtain ⟨m2, b1, b2, b3, b4, b5, b6⟩ := decompOneLoop_spec (f := f) (req := req) (pref := pref) (acomp := acomp)
      (adec := adec) hin hst ks (fun k' hk' => hks k' (List.mem_cons_of_mem _ hk')) hnd' m1 a3 a4
    refine ⟨m2, ?_, b2.trans a2, b3, b4, fun i hmem => ?_, fun i hmem => ?_⟩
    · show BRes.bind (decompOne (Impl.trivial f g req pref) acomp adec inp comp poss csizes k m) _ = _
      rw [a1]
      exact b1
    · rcases List.mem_cons.1 hmem with rfl | h
      · obtain ⟨d1, d2⟩ := b6 i hnk
        exact ⟨d1.trans a5, d2.trans a5'⟩
      · exact b5 i h
    · obtain ⟨c1, c2⟩ := a6 i fun hx => hmem (hx ▸ List.mem_cons_self)
      obtain ⟨d1, d2⟩ := b6 i fun hx => hmem (List.mem_cons_of_mem _ hx)
      exact ⟨d1.trans c1, d2.trans c2⟩

/-! ## Loops that are undefined -/

theorem forEach_ub {α : Type} {P : α → Prop} {body : Nat → α → BRes α} {k : Nat}
    (hk : ∀ a, P a → body k a = .ub) : ∀ is : List Nat,
    (∀ i ∈ is, ∀ a, P a → body i a = .ub ∨ ∃ a', body i a = .ok a' ∧ P a') → k ∈ is → ∀ a, P a → forEach body is a = .ub
  | [], _, h, _, _ => by cases h
  | i :: is, hstep, h, a, ha => by
    show BRes.bind (body i a) _ = _
    rcases hstep i List.mem_cons_self a ha with h1 | ⟨a', h1, h2⟩
    · rw [h1]; rfl
    · rw [h1]
      rcases List.mem_cons.1 h with rfl | h
      · rw [hk a ha] at h1; cases h1
      · exact forEach_ub hk is (fun i hi => hstep i (List.mem_cons_of_mem _ hi)) h a' h2

theorem access_cases {α β : Type} (o : Option α) (f : α → BRes β) (h : ∀ a, f a = .ub ∨ ∃ b, f a = .ok b) :
    (BRes.access o).bind f = .ub ∨ ∃ b, (BRes.access o).bind f = .ok b := by
  cases o with
  | none => exact .inl rfl
  | some a => exact h a

theorem ptrAdd_cases {β : Type} (p : Option (List Byte)) (n : Nat) (f : Option (List Byte) → BRes β)
    (h : ∀ a, f a = .ub ∨ ∃ b, f a = .ok b) : (ptrAdd p n).bind f = .ub ∨ ∃ b, (ptrAdd p n).bind f = .ok b := by
  unfold ptrAdd
  cases p with
  | none => simp only; split; exact h _; exact .inl rfl
  | some m => simp only; split; exact h _; exact .inl rfl

theorem condenseChunk_cases (out : List Byte) (poss sizes : List Nat) (c : Nat) (cond : List Byte) :
    condenseChunk out poss sizes c cond = .ub ∨ ∃ b, condenseChunk out poss sizes c cond = .ok b := by
  refine ptrAdd_cases _ _ _ fun _ => access_cases _ _ fun pos => ptrAdd_cases _ _ _ fun _ => access_cases _ _ fun n =>
    access_cases _ _ fun bytes => ?_
  cases writeBytes cond pos bytes with
  | none => exact .inl rfl
  | some b => exact .inr ⟨b, rfl⟩

theorem condenseChunk_long {out : List Byte} {poss sizes : List Nat} {c n : Nat} (cond : List Byte)
    (hout : out.length < n) (hs : sizes[c]? = some n) : condenseChunk out poss sizes c cond = .ub := by
  have hrd : readBytes out (sampleChunk * c) n = none := by
    unfold readBytes
    rw [if_neg (by omega)]
  unfold condenseChunk ptrAdd
  simp only [hs, bind]
  by_cases h1 : sampleChunk * c ≤ out.length
  · rw [if_pos h1]
    cases poss[c]? with
    | none => rfl
    | some pos =>
      simp only [BRes.access, BRes.bind]
      by_cases h2 : pos ≤ cond.length
      · rw [if_pos h2]; simp only [hrd]
      · rw [if_neg h2]
  · rw [if_neg h1]; rfl

/-- Condensing a chunk that is marked as not compressed is undefined. -/
theorem condenseChunk_raw {out : List Byte} {poss sizes : List Nat} {c : Nat} (cond : List Byte)
    (hout : out.length < 2 ^ 64 - 1) (hs : sizes[c]? = some SIZE_MAX) : condenseChunk out poss sizes c cond = .ub :=
  condenseChunk_long cond hout hs

theorem chunkedBody_cases {f : ChunkFn} (hg : ∀ a o src dst, f a o src dst ≠ .timeout) (inp : List Byte) (ilens : List Nat)
    (i so d : Nat) (ret : Option Errno) (s : ChState) :
    chunkedBody f inp ilens i so d ret s = .ub ∨ ∃ r s', chunkedBody f inp ilens i so d ret s = .ok r s' := by
  unfold chunkedBody
  rcases hil : ilens[i]? with _ | il
  · left; rw [M.bind_def]; simp only [M.access]
  rw [M.access_bind_some (g := fun _ : ChState => some il) rfl]
  by_cases hsm : il = SIZE_MAX
  · rw [if_pos hsm]; exact .inr ⟨_, _, rfl⟩
  rw [if_neg hsm]
  by_cases hin : so + il ≤ inp.length
  swap
  · left; rw [M.bind_def]; simp only [M.access, readBytes, if_neg hin]
  have e1 : readBytes inp so il = some ((inp.drop so).take il) := if_pos hin
  rw [M.access_bind_some (g := fun _ : ChState => readBytes inp so il) e1]
  rcases hol : s.olens[i]? with _ | ol
  · left; rw [M.bind_def]; simp only [M.access, hol]
  rw [M.access_bind_some (g := fun s : ChState => s.olens[i]?) hol]
  by_cases hout : d + ol ≤ s.out.length
  swap
  · left; rw [M.bind_def]; simp only [M.access, readBytes, if_neg hout]
  have e2 : readBytes s.out d ol = some ((s.out.drop d).take ol) := if_pos hout
  rw [M.access_bind_some (g := fun s : ChState => readBytes s.out d ol) e2]
  rcases hf : f so d ((inp.drop so).take il) ((s.out.drop d).take ol) with ⟨rc, n, buf⟩ | _ | _
  · simp only
    rw [M.bind_def]
    simp only [M.update]
    cases hw : (writeBytes s.out d buf).map (fun o => { s with out := o }) with
    | none => exact .inl rfl
    | some s1 =>
      simp only
      rw [M.bind_def]
      simp only [M.update]
      split
      · rename_i h
        split at h
        · cases h; exact .inr ⟨_, _, rfl⟩
        · cases h
      · rename_i h
        split at h <;> cases h
      · exact .inl rfl
      · rename_i h
        split at h <;> cases h
  · exact .inl rfl
  · exact absurd hf (hg _ _ _ _)

theorem chunkedLoop_cases {f : ChunkFn} (hg : ∀ a o src dst, f a o src dst ≠ .timeout) {N is os : Nat} {inp : List Byte}
    {ilens : List Nat} (hN : N < 2 ^ 32) : ∀ fuel i so d ret s, N - i < fuel →
    chunkedLoop f N is os inp ilens fuel i so d ret s = .ub ∨
      ∃ s', chunkedLoop f N is os inp ilens fuel i so d ret s = .ok () s'
  | 0, _, _, _, _, _, h => by omega
  | fuel + 1, i, so, d, ret, s, h => by
    unfold chunkedLoop
    by_cases hi : i < N
    · rw [if_pos hi, M.bind_def]
      rcases chunkedBody_cases hg inp ilens i so d ret s with h1 | ⟨r, s', h1⟩
      · rw [h1]; exact .inl rfl
      · rw [h1]
        simp only
        rw [Nat.mod_eq_of_lt (show i + 1 < 2 ^ 32 by omega)]
        exact chunkedLoop_cases hg hN fuel (i + 1) _ _ r s' (by omega)
    · rw [if_neg hi]; exact .inr ⟨_, rfl⟩

/-- A trivial chunked call for up to 16 chunks of a function that returns or is undefined. -/
theorem batch_cases {g : ChunkFn} (hk : KeepsSize g) (hg : ∀ a o src dst, g a o src dst ≠ .timeout) {n a o : Nat} (hn : n ≤ 16)
    {inp out : List Byte} {ilens olens : List Nat} {rets : List (Option Errno)} (hr : n ≤ rets.length) :
    trivialChunked g a o n 65536 65536 inp ilens ⟨rets, out, olens⟩ = .ub ∨
    ∃ s', trivialChunked g a o n 65536 65536 inp ilens ⟨rets, out, olens⟩ = .ok none s' ∧
      s'.out.length = out.length ∧ s'.olens.length = olens.length ∧
      ∀ i < n, ∀ il, ilens[i]? = some il → il ≠ SIZE_MAX → i * 65536 + il ≤ inp.length := by
  have hks := keepsSize_shift hk a o
  have hcases : trivialChunked g a o n 65536 65536 inp ilens ⟨rets, out, olens⟩ = .ub ∨
      ∃ s', trivialChunked g a o n 65536 65536 inp ilens ⟨rets, out, olens⟩ = .ok none s' := by
    unfold trivialChunked chunked chunkedF
    rw [M.bind_def]
    rcases chunkedLoop_cases (f := fun so d => g (a + so) (o + d)) (fun x y => hg (a + x) (o + y)) (N := n) (is := 65536)
      (os := 65536) (inp := inp) (ilens := ilens) (by omega) (n + 1) 0 0 0 none ⟨rets, out, olens⟩ (by omega) with h | ⟨s', h⟩
    · rw [h]; exact .inl rfl
    · rw [h]; exact .inr ⟨s', rfl⟩
  rcases hcases with h | ⟨s', h⟩
  · exact .inl h
  · right
    have h' := h
    unfold trivialChunked at h'
    rw [C29_chunked_partial _ hks n 65536 65536 inp ilens _ s' none (by omega) hr (by omega) (by omega)] at h'
    refine ⟨s', h, (C31_writes_only_regions _ hks _ _ _ _ _ _ _ h'.2).1, h'.2.lens.2, ?_⟩
    have key : ∀ k s1 s2, Successive (fun so d => g (a + so) (o + d)) inp ilens (fun i => i * 65536) (fun i => i * 65536) k s1 s2 →
        ∀ i < k, ∀ il, ilens[i]? = some il → il ≠ SIZE_MAX → i * 65536 + il ≤ inp.length := by
      intro k s1 s2 hs
      induction hs with
      | zero => intro i hi; omega
      | @succ k s s1 s2 _ hst ih =>
        intro i hi il hil hne
        by_cases hik : i = k
        · subst hik
          cases hst with
          | skip h => rw [h] at hil; exact absurd (Option.some.inj hil).symm hne
          | call h1 h2 h3 => rw [h1] at hil; cases hil; exact h3
        · exact ih i (by omega) il hil hne
    exact key n _ _ h'.2

/-- One iteration of the decompression loop on condensed data: undefined, or it leaves the sizes of the arrays alone and
no chunk has exceeded the condensed buffer. -/
theorem decompBatchCond_cases {f g : ChunkFn} (hkg : KeepsSize g) (hg : ∀ a o src dst, g a o src dst ≠ .timeout)
    {req pref acond adec num k pos : Nat} {inp cond : List Byte}
    {poss csizes : List Nat} {rets0 : Nat → List (Option Errno)} (hk : k < num) (hin : inp.length = num * 65536)
    (hcs : csizes.length = num) (hpos : poss[k]? = some pos) (hpl : pos ≤ cond.length)
    (hr : (rets0 k).length = 16) (m : OmpMem) (hb : m.buf.length = num * 65536) (hs : m.sizes.length = num) :
    decompBatchCond (Impl.trivial f g req pref) acond adec inp cond poss csizes num rets0 k m = .ub ∨
    ∃ m', decompBatchCond (Impl.trivial f g req pref) acond adec inp cond poss csizes num rets0 k m = .ok m' ∧
      m'.buf.length = num * 65536 ∧ m'.sizes.length = num ∧
      ∀ i, k ≤ i → i < k + 16 → i < num → ∀ n, csizes[i]? = some n → n ≠ SIZE_MAX →
        pos + 65536 * (i - k) + n ≤ cond.length := by
  obtain ⟨n1, n2, n3⟩ := batchChunks_le num k
  generalize hn : batchChunks num k = n at n1 n2 n3
  obtain ⟨sz, f1, f2, f3, f4⟩ := fillSizes_get (sizes := m.sizes) (k := k) (n := n) (v := sampleChunk) (by omega)
  have hp1 : ptrAdd (some cond) pos = .ok (some (cond.drop pos)) := ptrAdd_some hpl
  have hp2 : ptrAdd (some m.buf) (sampleChunk * k) = .ok (some (m.buf.drop (sampleChunk * k))) :=
    ptrAdd_some (by unfold sampleChunk; omega)
  rcases batch_cases hkg hg n1 (a := acond + pos) (o := adec + sampleChunk * k) (inp := cond.drop pos)
    (out := m.buf.drop (sampleChunk * k)) (ilens := csizes.drop k) (olens := sz.drop k) (rets := rets0 k) (by omega)
    with h | ⟨s', h1, h2, h3, h4⟩
  · left
    have h' : trivialChunked g (acond + pos) (adec + sampleChunk * k) n sampleChunk sampleChunk (cond.drop pos)
      (csizes.drop k) ⟨rets0 k, m.buf.drop (sampleChunk * k), sz.drop k⟩ = .ub := h
    unfold decompBatchCond
    simp only [hn, hpos, hp1, hp2, f1, BRes.access, bind, BRes.bind, Option.getD_some, Impl.trivial, h']
  · right
    have h' : trivialChunked g (acond + pos) (adec + sampleChunk * k) n sampleChunk sampleChunk (cond.drop pos)
      (csizes.drop k) ⟨rets0 k, m.buf.drop (sampleChunk * k), sz.drop k⟩ = .ok none s' := h1
    have hbl : 65536 * k ≤ m.buf.length := by omega
    obtain ⟨m2, e1, e2, e3, e4, -⟩ := copyLoop (inp := inp) (csizes := csizes) (k := k) (num := num)
      (Nat.le_of_eq hin.symm) hcs (List.range n)
      ⟨m.buf.take (sampleChunk * k) ++ s'.out, sz.take k ++ s'.olens, m.success⟩
      (fun c hc => by have := List.mem_range.1 hc; omega)
      (by
        show (m.buf.take (sampleChunk * k) ++ s'.out).length = _
        rw [List.length_append, List.length_take, h2, List.length_drop]; unfold sampleChunk; omega)
      (by
        show (sz.take k ++ s'.olens).length = _
        rw [List.length_append, List.length_take, h3, List.length_drop]; omega)
    refine ⟨m2, ?_, by omega, e4, fun i i1 i2 i3 nn hnn hne => ?_⟩
    · unfold decompBatchCond
      simp only [hn, hpos, hp1, hp2, f1, BRes.access, bind, BRes.bind, Option.getD_some, Impl.trivial, h', e1]
    have := h4 (i - k) (by omega) nn (by rw [List.getElem?_drop, show k + (i - k) = i by omega]; exact hnn) hne
    rw [List.length_drop] at this
    omega

end Lib842
