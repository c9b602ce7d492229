import Verif.Model.Pgasus
import Verif.Proofs.Sample
/-!
# Lemmas on the sample programs for NUMA machines
-/

namespace Lib842

/-- What the programs expect of compressor and decompressor: a chunk of 64 KiB is always compressed
into 128 KiB of space, and restored from the bytes announced. -/
structure PgContract (f g : ChunkFn) : Prop where
  comp : ∀ a o src dst, src.length = 65536 → dst.length = 131072 →
    ∃ n buf, f a o src dst = .ret none n buf ∧ buf.length = 131072 ∧ n ≤ 131072 ∧
      ∀ a' o' dst', dst'.length = 65536 → g a' o' (buf.take n) dst' = .ret none 65536 src

namespace Pg

/-- Chunk `i` is compressed. -/
def Good (g : ChunkFn) (data : List Byte) (m : NodeMem) (i : Nat) : Prop :=
  ∃ n, m.csizes[i]? = some n ∧ n ≤ 131072 ∧ i * 131072 + n ≤ m.comp.length ∧
    ∀ a o dst, dst.length = 65536 → g a o ((m.comp.drop (i * 131072)).take n) dst = .ret none 65536 (chunkOf data i)

/-- Memory of a node after the chunks in `D` have been compressed -/
structure I1 (g : ChunkFn) (len cpn : Nat) (data : List Byte) (D : Nat → Prop) (m : NodeMem) : Prop where
  inp : m.inp = data
  comp : m.comp.length = len * 2
  dec : m.dec = List.replicate len 0
  cs : m.csizes.length = cpn
  ds : m.dsizes.length = cpn
  good : ∀ i < cpn, D i → Good g data m i

/-- Memory of a node after the chunks in `D` have been decompressed; those in `E` are compressed. -/
structure I2 (g : ChunkFn) (len cpn : Nat) (data : List Byte) (E D : Nat → Prop) (m : NodeMem) : Prop where
  inp : m.inp = data
  comp : m.comp.length = len * 2
  dlen : m.dec.length = len
  cs : m.csizes.length = cpn
  ds : m.dsizes.length = cpn
  good : ∀ i < cpn, E i → Good g data m i
  done : ∀ q, D (q / 65536) → q / 65536 < cpn → m.dec[q]? = data[q]?
  zero : ∀ q < len, ¬ (D (q / 65536) ∧ q / 65536 < cpn) → m.dec[q]? = some 0

theorem dbl {a len i : Nat} (hb : i * 65536 + 65536 ≤ len) (h : a = len * 2) : i * 131072 + 131072 ≤ a := by
  have h1 : i * 131072 = i * 65536 * 2 := by rw [Nat.mul_assoc]
  rw [h1, h]
  have := Nat.mul_le_mul_right 2 hb
  rwa [Nat.add_mul] at this

/-- The 128 KiB of space for chunk `i` -/
def slot (m : List Byte) (i : Nat) : List Byte := (m.drop (i * 131072)).take 131072

theorem length_slot {m : List Byte} {i : Nat} (h : i * 131072 + 131072 ≤ m.length) : (slot m i).length = 131072 := by
  unfold slot
  rw [List.length_take, List.length_drop]
  exact Nat.min_eq_left (by omega)

section
attribute [local irreducible] chunkOf slot

theorem step1 {f g : ChunkFn} (hc : PgContract f g) {len cpn : Nat} {data : List Byte} (hd : data.length = len)
    (hcpn : cpn = len / 65536) (a : PgAddrs) (k : Nat) {D : Nat → Prop} {m : NodeMem} (h : I1 g len cpn data D m) (i : Nat)
    (hi : i < cpn) :
    ∃ m', pgCompress f a k i m = .ok (m', true) ∧ I1 g len cpn data (fun x => D x ∨ x = i) m' := by
  have hb : i * 65536 + 65536 ≤ len := by omega
  have hsl : (chunkOf data i).length = 65536 := length_chunkOf (by omega)
  have hb2 := dbl hb h.comp
  have hdl : (slot m.comp i).length = 131072 := length_slot hb2
  obtain ⟨n, buf, h1, h2, h3, h4⟩ := hc.comp (a.ain k + i * 65536) (a.acomp k + i * 131072) (chunkOf data i)
    (slot m.comp i) hsl hdl
  obtain ⟨comp', hw⟩ := writeBytes_some (m := m.comp) (bs := buf) (i := i * 131072) (by rw [h2]; exact hb2)
  have hw' := writeBytes_get hw
  refine ⟨{ m with comp := comp', csizes := m.csizes.set i n }, ?_, ⟨h.inp, hw'.1.trans h.comp, h.dec, ?_, h.ds, ?_⟩⟩
  · unfold pgCompress
    simp only [sampleChunk]
    rw [h.inp, readBytes_ok (by rw [hd]; exact hb), readBytes_ok hb2]
    rw [show m.csizes[i]? = some (m.csizes[i]'(by rw [h.cs]; exact hi)) from List.getElem?_eq_getElem _]
    simp only [BRes.access, bind, BRes.bind]
    have h1' := h1
    unfold chunkOf slot at h1'
    rw [h1']
    simp only [hw]
    rfl
  · rw [List.length_set]; exact h.cs
  · intro x hx hD
    by_cases hxi : x = i
    · subst hxi
      refine ⟨n, by rw [List.getElem?_set_self (by rw [h.cs]; exact hi)], h3, Nat.le_trans (Nat.add_le_add_left h3 _) (by rw [hw'.1]; exact hb2), fun a o dst hdst => ?_⟩
      have : (comp'.drop (x * 131072)).take n = buf.take n := by
        apply List.ext_getElem?
        intro q
        by_cases hq : q < n
        · rw [List.getElem?_take_of_lt hq, List.getElem?_take_of_lt hq, List.getElem?_drop, hw'.2, if_pos (by omega)]
          congr 1; omega
        · rw [List.getElem?_eq_none (by rw [List.length_take]; omega), List.getElem?_eq_none (by rw [List.length_take]; omega)]
      rw [this]
      exact h4 a o dst hdst
    · obtain ⟨n', g1, g2, g3, g4⟩ := h.good x hx (hD.resolve_right hxi)
      refine ⟨n', by rw [List.getElem?_set_ne (Ne.symm hxi)]; exact g1, g2, by rw [hw'.1]; exact g3, fun a o dst hdst => ?_⟩
      have : (comp'.drop (x * 131072)).take n' = (m.comp.drop (x * 131072)).take n' := by
        apply List.ext_getElem?
        intro q
        by_cases hq : q < n'
        · rw [List.getElem?_take_of_lt hq, List.getElem?_take_of_lt hq, List.getElem?_drop, List.getElem?_drop, hw'.2,
            if_neg (by omega)]
        · rw [List.getElem?_eq_none (by rw [List.length_take]; omega), List.getElem?_eq_none (by rw [List.length_take]; omega)]
      rw [this]
      exact g4 a o dst hdst

theorem step1_ub {f g : ChunkFn} {len cpn : Nat} {data : List Byte} (a : PgAddrs) (k : Nat) {D : Nat → Prop} {m : NodeMem}
    (h : I1 g len cpn data D m) (i : Nat) (hi : cpn ≤ i) : pgCompress f a k i m = .ub := by
  unfold pgCompress
  rw [List.getElem?_eq_none (by rw [h.cs]; exact hi)]
  cases readBytes m.inp (i * sampleChunk) sampleChunk with
  | none => rfl
  | some x =>
    cases readBytes m.comp (i * (sampleChunk * 2)) (sampleChunk * 2) with
    | none => rfl
    | some y => rfl

theorem step2 {f g : ChunkFn} (_ : PgContract f g) {len cpn : Nat} {data : List Byte} (hd : data.length = len)
    (hcpn : cpn = len / 65536) (a : PgAddrs) (k : Nat) {E D : Nat → Prop} {m : NodeMem} (h : I2 g len cpn data E D m) (i : Nat)
    (hi : i < cpn) (hE : E i) :
    ∃ m', pgDecompress g a k i m = .ok (m', true) ∧ I2 g len cpn data E (fun x => D x ∨ x = i) m' := by
  have hb : i * 65536 + 65536 ≤ len := by omega
  have hsl : (chunkOf data i).length = 65536 := length_chunkOf (by omega)
  obtain ⟨n, g1, g2, g3, g4⟩ := h.good i hi hE
  have hdl : (chunkOf m.dec i).length = 65536 := length_chunkOf (by have := h.dlen; omega)
  obtain ⟨dec', hw⟩ := writeBytes_some (m := m.dec) (bs := chunkOf data i) (i := i * 65536) (by rw [hsl, h.dlen]; exact hb)
  have hw' := writeBytes_get hw
  refine ⟨{ m with dec := dec', dsizes := m.dsizes.set i 65536 }, ?_,
    ⟨h.inp, h.comp, hw'.1.trans h.dlen, h.cs, by rw [List.length_set]; exact h.ds, h.good, ?_, ?_⟩⟩
  · unfold pgDecompress
    simp only [sampleChunk]
    rw [g1]
    simp only [BRes.access, bind, BRes.bind]
    rw [readBytes_ok g3]
    simp only
    rw [readBytes_ok (by rw [h.dlen]; exact hb)]
    rw [show m.dsizes[i]? = some (m.dsizes[i]'(by rw [h.ds]; exact hi)) from List.getElem?_eq_getElem _]
    simp only
    rw [show ((m.dec.drop (i * 65536)).take 65536) = chunkOf m.dec i by unfold chunkOf; rfl, g4 _ _ _ hdl]
    simp only [hw]
    rfl
  · intro q hq hqc
    by_cases hqi : q / 65536 = i
    · rw [hw'.2, if_pos (by rw [hsl]; omega), getElem?_chunkOf _ (by omega)]
      congr 1; omega
    · rw [hw'.2, if_neg (by rw [hsl]; omega)]
      exact h.done q (hq.resolve_right hqi) hqc
  · intro q hq hn
    have : q / 65536 ≠ i := fun hx => hn ⟨.inr hx, by omega⟩
    rw [hw'.2, if_neg (by rw [hsl]; omega)]
    exact h.zero q hq fun hx => hn ⟨.inl hx.1, hx.2⟩

end

theorem step2_ub {g : ChunkFn} {len cpn : Nat} {data : List Byte} (a : PgAddrs) (k : Nat) {E D : Nat → Prop} {m : NodeMem}
    (h : I2 g len cpn data E D m) (i : Nat) (hi : cpn ≤ i) : pgDecompress g a k i m = .ub := by
  unfold pgDecompress
  rw [List.getElem?_eq_none (by rw [h.cs]; exact hi)]
  rfl

section
variable {body : Nat → NodeMem → BRes (NodeMem × Bool)} {I : (Nat → Prop) → NodeMem → Prop} {cpn : Nat} {E : Nat → Prop}

theorem loop_ok (stop : Bool) (hstep : ∀ D m i, I D m → i < cpn → E i → ∃ m', body i m = .ok (m', true) ∧ I (fun x => D x ∨ x = i) m')
    (hI : ∀ D D' m, (∀ x, D x ↔ D' x) → I D m → I D' m)
    (e : Nat) : ∀ fuel i (D : Nat → Prop) m, I D m → e < cpn → e + 1 - i < fuel → (∀ x, i ≤ x → x ≤ e → E x) →
      ∃ m', pgLoop body stop e fuel i m = .ok m' ∧ I (fun x => D x ∨ (i ≤ x ∧ x ≤ e)) m' := by
  intro fuel
  induction fuel with
  | zero =>
    intro i D m h he hf hE
    omega
  | succ fuel ih =>
    intro i D m h he hf hE
    by_cases hi : i ≤ e
    · obtain ⟨m', h1, h2⟩ := hstep D m i h (by omega) (hE i (Nat.le_refl _) hi)
      obtain ⟨m'', h3, h4⟩ := ih (i + 1) _ m' h2 he (by omega) (fun x hx => hE x (by omega))
      refine ⟨m'', ?_, hI _ _ _ (fun x => ?_) h4⟩
      · show (if i ≤ e then _ else _) = _
        rw [if_pos hi, h1]
        simp only [bind, BRes.bind, Bool.not_true, Bool.and_false, Bool.false_eq_true, if_false]
        exact h3
      · constructor
        · rintro ((h | h) | h)
          · exact .inl h
          · exact .inr (by omega)
          · exact .inr (by omega)
        · rintro (h | h)
          · exact .inl (.inl h)
          · by_cases hx : x = i
            · exact .inl (.inr hx)
            · exact .inr (by omega)
    · refine ⟨m, ?_, hI _ _ _ (fun x => ?_) h⟩
      · show (if i ≤ e then _ else _) = _
        rw [if_neg hi]
      · constructor
        · exact .inl
        · rintro (h | h)
          · exact h
          · omega

theorem loop_ub (stop : Bool) (hstep : ∀ D m i, I D m → i < cpn → E i → ∃ m', body i m = .ok (m', true) ∧ I (fun x => D x ∨ x = i) m')
    (hub : ∀ D m i, I D m → cpn ≤ i → body i m = .ub)
    (e : Nat) : ∀ fuel i (D : Nat → Prop) m, I D m → cpn ≤ e → i ≤ e → 0 < fuel → cpn < fuel + i → (∀ x, i ≤ x → x < cpn → E x) →
      pgLoop body stop e fuel i m = .ub := by
  intro fuel
  induction fuel with
  | zero => intro i D m h he hi h0 hf hE; omega
  | succ fuel ih =>
    intro i D m h he hi h0 hf hE
    show (if i ≤ e then _ else _) = _
    rw [if_pos hi]
    by_cases hc : i < cpn
    · obtain ⟨m', h1, h2⟩ := hstep D m i h hc (hE i (Nat.le_refl _) hc)
      rw [h1]
      simp only [bind, BRes.bind, Bool.not_true, Bool.and_false, Bool.false_eq_true, if_false]
      exact ih (i + 1) _ m' h2 he (by omega) (by omega) (by omega) (fun x hx => hE x (by omega))
    · rw [hub D m i h (by omega)]
      rfl

end

section
variable {body : Nat → Nat → NodeMem → BRes (NodeMem × Bool)} {I : Nat → (Nat → Prop) → NodeMem → Prop} {cpn cpc N : Nat}
  {E : Nat → Nat → Prop}

/-- The chunks of thread `t` -/
def Mine (cpc t x : Nat) : Prop := t * cpc ≤ x ∧ x < t * cpc + cpc

/-- All threads of `l` -/
theorem all_spec (stop : Bool) (hpos : 0 < cpc)
    (hstep : ∀ k < N, ∀ D m i, I k D m → i < cpn → E k i → ∃ m', body k i m = .ok (m', true) ∧ I k (fun x => D x ∨ x = i) m')
    (hub : ∀ k < N, ∀ D m i, I k D m → cpn ≤ i → body k i m = .ub)
    (hI : ∀ k < N, ∀ D D' m, (∀ x, D x ↔ D' x) → I k D m → I k D' m) :
    ∀ (l : List (Nat × Nat)) (D : Nat → Nat → Prop) (ms : List NodeMem), ms.length = N →
      (∀ k < N, ∃ m, ms[k]? = some m ∧ I k (D k) m) →
      (∀ kt ∈ l, kt.1 < N ∧ kt.2 * cpc + cpc < 2 ^ 64 ∧ ∀ x, Mine cpc kt.2 x → x < cpn → E kt.1 x) →
      ((∀ kt ∈ l, kt.2 * cpc + cpc ≤ cpn) → ∃ ms', pgAll body stop cpn cpc l ms = .ok ms' ∧ ms'.length = N ∧
        ∀ k < N, ∃ m, ms'[k]? = some m ∧ I k (fun x => D k x ∨ ∃ t, (k, t) ∈ l ∧ Mine cpc t x) m) ∧
      ((∃ kt ∈ l, cpn < kt.2 * cpc + cpc) → pgAll body stop cpn cpc l ms = .ub) := by
  intro l
  induction l with
  | nil =>
    intro D ms hlen hms _
    refine ⟨fun _ => ⟨ms, rfl, hlen, fun k hk => ?_⟩, fun h => by obtain ⟨_, h, _⟩ := h; cases h⟩
    obtain ⟨m, h1, h2⟩ := hms k hk
    exact ⟨m, h1, hI k hk _ _ _ (fun x => by simp) h2⟩
  | cons kt l ih =>
    intro D ms hlen hms hl
    obtain ⟨hk, h64, hE⟩ := hl kt (List.mem_cons_self ..)
    obtain ⟨m, hm, hIm⟩ := hms kt.1 hk
    have hmod : (kt.2 * cpc + cpc + 2 ^ 64 - 1) % 2 ^ 64 = kt.2 * cpc + cpc - 1 := by omega
    by_cases hfit : kt.2 * cpc + cpc ≤ cpn
    · obtain ⟨m', h1, h2⟩ := loop_ok (body := body kt.1) (I := I kt.1) (cpn := cpn) (E := E kt.1) stop (hstep kt.1 hk) (hI kt.1 hk)
        (kt.2 * cpc + cpc - 1) (cpn + 1) (kt.2 * cpc) (D kt.1) m hIm (by omega) (by omega)
        (fun x h1 h2 => hE x ⟨h1, by omega⟩ (by omega))
      have hth : pgThread body stop cpn cpc kt ms = .ok (ms.set kt.1 m') := by
        unfold pgThread
        rw [hm]
        simp only [BRes.access, bind, BRes.bind]
        rw [hmod, h1]
      have hall : pgAll body stop cpn cpc (kt :: l) ms = pgAll body stop cpn cpc l (ms.set kt.1 m') := by
        show BRes.bind (pgThread body stop cpn cpc kt ms) _ = _
        rw [hth]
        rfl
      obtain ⟨i1, i2⟩ := ih (fun k x => D k x ∨ (k = kt.1 ∧ Mine cpc kt.2 x)) (ms.set kt.1 m') (by rw [List.length_set]; exact hlen)
        (by
          intro k hk'
          by_cases hkk : k = kt.1
          · subst hkk
            refine ⟨m', by rw [List.getElem?_set_self (by omega)], hI _ hk _ _ _ (fun x => ?_) h2⟩
            unfold Mine
            constructor
            · rintro (h | h)
              · exact .inl h
              · exact .inr ⟨rfl, by omega⟩
            · rintro (h | h)
              · exact .inl h
              · exact .inr (by omega)
          · obtain ⟨m2, h3, h4⟩ := hms k hk'
            refine ⟨m2, by rw [List.getElem?_set_ne (Ne.symm hkk)]; exact h3, hI _ hk' _ _ _ (fun x => ?_) h4⟩
            simp [hkk])
        (fun x hx => hl x (List.mem_cons_of_mem _ hx))
      rw [hall]
      refine ⟨fun h => ?_, fun h => ?_⟩
      · obtain ⟨ms', j1, j2, j3⟩ := i1 fun x hx => h x (List.mem_cons_of_mem _ hx)
        refine ⟨ms', j1, j2, fun k hk' => ?_⟩
        obtain ⟨m3, j4, j5⟩ := j3 k hk'
        refine ⟨m3, j4, hI _ hk' _ _ _ (fun x => ?_) j5⟩
        constructor
        · rintro ((h | ⟨rfl, h⟩) | ⟨t, h, h'⟩)
          · exact .inl h
          · exact .inr ⟨kt.2, List.mem_cons_self .., h⟩
          · exact .inr ⟨t, List.mem_cons_of_mem _ h, h'⟩
        · rintro (h | ⟨t, h, h'⟩)
          · exact .inl (.inl h)
          · rcases List.mem_cons.1 h with h | h
            · subst h
              exact .inl (.inr ⟨rfl, h'⟩)
            · exact .inr ⟨t, h, h'⟩
      · obtain ⟨x, hx, hx'⟩ := h
        rcases List.mem_cons.1 hx with rfl | hx
        · omega
        · exact i2 ⟨x, hx, hx'⟩
    · have hth : pgThread body stop cpn cpc kt ms = .ub := by
        unfold pgThread
        rw [hm]
        simp only [BRes.access, bind, BRes.bind]
        rw [hmod, loop_ub (body := body kt.1) (I := I kt.1) (cpn := cpn) (E := E kt.1) stop (hstep kt.1 hk) (hub kt.1 hk)
          (kt.2 * cpc + cpc - 1) (cpn + 1) (kt.2 * cpc) (D kt.1) m hIm (by omega) (by omega) (by omega) (by omega)
          (fun x h1 h2 => hE x ⟨h1, by omega⟩ h2)]
      refine ⟨fun h => absurd (h kt (List.mem_cons_self ..)) hfit, fun _ => ?_⟩
      show BRes.bind (pgThread body stop cpn cpc kt ms) _ = _
      rw [hth]
      rfl

theorem mem_threads {ts : List Nat} {k t : Nat} : (k, t) ∈ pgThreads ts ↔ ∃ n, ts[k]? = some n ∧ t < n := by
  unfold pgThreads
  simp only [List.mem_flatMap, List.mem_range, List.mem_map, Prod.mk.injEq]
  constructor
  · rintro ⟨k', hk, t', ht, rfl, rfl⟩
    rw [List.getD_eq_getElem?_getD, List.getElem?_eq_getElem hk] at ht
    exact ⟨_, List.getElem?_eq_getElem hk, ht⟩
  · rintro ⟨n, hn, ht⟩
    obtain ⟨hk, -⟩ := List.getElem?_eq_some_iff.1 hn
    exact ⟨k, hk, t, by rw [List.getD_eq_getElem?_getD, hn]; exact ht, rfl, rfl⟩

end
end Pg
end Lib842
