import Verif.Proofs.PgInterleave
/-!
# The two phases of the NUMA samples
-/

namespace Lib842
namespace PgI
open Pg (Good)

theorem readBytes_length {m bs : List Byte} {i n : Nat} (h : readBytes m i n = some bs) : bs.length = n := by
  unfold readBytes at h
  split at h
  · cases h; rw [List.length_take, List.length_drop]; omega
  · cases h

/-! ## Compression -/

structure Stat1 (len cpn : Nat) (data : Nat → List Byte) (k : Nat) (m : NodeMem) : Prop where
  inp : m.inp = data k
  comp : m.comp.length = len * 2
  dec : m.dec = List.replicate len 0
  cs : m.csizes.length = cpn
  ds : m.dsizes.length = cpn

def Res1 (g : ChunkFn) (data : Nat → List Byte) (k i n : Nat) (buf : List Byte) : Prop :=
  n ≤ 131072 ∧ ∀ a o dst, dst.length = 65536 → g a o (buf.take n) dst = .ret none 65536 (chunkOf (data k) i)

theorem good_congr {g : ChunkFn} {data : List Byte} {m m' : NodeMem} {x : Nat} (hl : m'.comp.length = m.comp.length)
    (hc : m'.csizes[x]? = m.csizes[x]?) (hb : ∀ q, x * 131072 ≤ q → q < x * 131072 + 131072 → m'.comp[q]? = m.comp[q]?)
    (h : Good g data m x) : Good g data m' x := by
  obtain ⟨n, h1, h2, h3, h4⟩ := h
  refine ⟨n, by rw [hc, h1], h2, by rw [hl]; exact h3, fun a o dst hd => ?_⟩
  have : (m'.comp.drop (x * 131072)).take n = (m.comp.drop (x * 131072)).take n := by
    apply List.ext_getElem?
    intro q
    by_cases hq : q < n
    · rw [List.getElem?_take_of_lt hq, List.getElem?_take_of_lt hq, List.getElem?_drop, List.getElem?_drop, hb (x * 131072 + q) (Nat.le_add_right _ _) (Nat.add_lt_add_left (Nat.lt_of_lt_of_le hq h2) _)]
    · rw [List.getElem?_eq_none (by rw [List.length_take]; omega), List.getElem?_eq_none (by rw [List.length_take]; omega)]
  rw [this]
  exact h4 a o dst hd

theorem phase1 {f g : ChunkFn} (hc : PgContract f g) (a : PgAddrs) {N len cpn : Nat} {data : Nat → List Byte}
    (hd : ∀ k, (data k).length = len) (hcpn : cpn = len / 65536) :
    Phase .comp f g a N cpn (fun _ _ => True) (Stat1 len cpn data) (fun k i m => Good g (data k) m i) (fun _ _ _ => True) (Res1 g data) := by
  refine ⟨?_, ?_, ?_, ?_⟩
  · intro k m h
    refine ⟨h.cs, ?_⟩
    show cpn * 131072 ≤ m.comp.length
    rw [h.comp]; omega
  · intro k m m' i h hch
    have e := hch.eq
    have hcells : ∀ x, x ≠ i → m'.csizes[x]? = m.csizes[x]? := hch.cells
    have hbytes : ∀ q, ¬ (i * 131072 ≤ q ∧ q < i * 131072 + 131072) → m'.comp[q]? = m.comp[q]? := hch.bytes
    have hout : m'.comp.length = m.comp.length := hch.out
    have hsz : m'.csizes.length = m.csizes.length := hch.sizes
    have e1 : m'.inp = m.inp := by rw [e]; rfl
    have e2 : m'.dec = m.dec := by rw [e]; rfl
    have e3 : m'.dsizes = m.dsizes := by rw [e]; rfl
    refine ⟨⟨e1.trans h.inp, hout.trans h.comp, e2.trans h.dec, hsz.trans h.cs, by rw [e3]; exact h.ds⟩, fun x hx => ⟨fun hg => ?_, id⟩⟩
    refine good_congr hout (hcells x hx) (fun q h1 h2 => hbytes q ?_) hg
    rintro ⟨h3, h4⟩
    exact hx (by omega)
  · intro k m i _ h hi _ hcell
    have hb : i * 65536 + 65536 ≤ len := by omega
    have hb2 := Pg.dbl hb h.comp
    have hsl : (chunkOf (data k) i).length = 65536 := length_chunkOf (by have := hd k; omega)
    have hdl := Pg.length_slot hb2
    obtain ⟨n, buf, h1, h2, h3, h4⟩ := hc.comp (a.ain k + i * 65536) (a.acomp k + i * 131072) (chunkOf (data k) i)
      (Pg.slot m.comp i) hsl hdl
    have hcell : m.csizes[i]? = some 131072 := hcell
    refine ⟨n, buf, ?_, h2, h3, h4⟩
    unfold pgCall
    simp only [sampleChunk]
    rw [h.inp, readBytes_ok (by rw [hd]; exact hb), hcell]
    simp only [bind, Option.bind]
    rw [readBytes_ok hb2]
    simp only
    have h1' := h1
    unfold chunkOf Pg.slot at h1'
    rw [h1', pgResult, if_pos h2]
  · intro k m i n buf h hi hl hr
    replace hl : buf.length = 131072 := hl
    have hb : i * 65536 + 65536 ≤ len := by omega
    have hb2 := Pg.dbl hb h.comp
    show Good g (data k) { m with comp := splice m.comp (i * 131072) buf, csizes := m.csizes.set i n } i
    have hll : (splice m.comp (i * 131072) buf).length = m.comp.length := length_splice (by rw [hl]; exact hb2)
    refine ⟨n, by rw [List.getElem?_set_self (by rw [h.cs]; exact hi)], hr.1, ?_, fun a o dst hdst => ?_⟩
    · show _ ≤ (splice m.comp (i * 131072) buf).length
      rw [hll]
      exact Nat.le_trans (Nat.add_le_add_left hr.1 _) hb2
    · have : ((splice m.comp (i * 131072) buf).drop (i * 131072)).take n = buf.take n := by
        have hn := hr.1
        apply List.ext_getElem?
        intro q
        by_cases hq : q < n
        · rw [List.getElem?_take_of_lt hq, List.getElem?_take_of_lt hq, List.getElem?_drop, getElem?_splice (by rw [hl]; exact hb2),
            if_pos ⟨Nat.le_add_right _ _, by rw [hl]; exact Nat.add_lt_add_left (Nat.lt_of_lt_of_le hq hn) _⟩, Nat.add_sub_cancel_left]
        · rw [List.getElem?_eq_none (by rw [List.length_take]; omega), List.getElem?_eq_none (by rw [List.length_take]; omega)]
      show g a o (((splice m.comp (i * 131072) buf).drop (i * 131072)).take n) dst = _
      rw [this]
      exact hr.2 a o dst hdst

/-! ## Decompression -/

structure Stat2 (g : ChunkFn) (len cpn : Nat) (data : Nat → List Byte) (E : Nat → Nat → Prop) (k : Nat) (m : NodeMem) : Prop where
  inp : m.inp = data k
  comp : m.comp.length = len * 2
  dec : m.dec.length = len
  cs : m.csizes.length = cpn
  ds : m.dsizes.length = cpn
  good : ∀ i < cpn, E k i → Good g (data k) m i

theorem phase2 {f g : ChunkFn} (a : PgAddrs) {N len cpn : Nat} {data : Nat → List Byte} {E : Nat → Nat → Prop}
    (hd : ∀ k, (data k).length = len) (hcpn : cpn = len / 65536) :
    Phase .dec f g a N cpn E (Stat2 g len cpn data E) (fun k x m => ∀ q, q / 65536 = x → m.dec[q]? = (data k)[q]?)
      (fun k x m => ∀ q < len, q / 65536 = x → m.dec[q]? = some 0) (fun k i _ buf => buf = chunkOf (data k) i) := by
  refine ⟨?_, ?_, ?_, ?_⟩
  · intro k m h
    refine ⟨h.ds, ?_⟩
    show cpn * 65536 ≤ m.dec.length
    rw [h.dec]; omega
  · intro k m m' i h hch
    have e := hch.eq
    have hbytes : ∀ q, ¬ (i * 65536 ≤ q ∧ q < i * 65536 + 65536) → m'.dec[q]? = m.dec[q]? := hch.bytes
    have hout : m'.dec.length = m.dec.length := hch.out
    have hsz : m'.dsizes.length = m.dsizes.length := hch.sizes
    have e1 : m'.inp = m.inp := by rw [e]; rfl
    have e2 : m'.comp = m.comp := by rw [e]; rfl
    have e3 : m'.csizes = m.csizes := by rw [e]; rfl
    refine ⟨⟨e1.trans h.inp, by rw [e2]; exact h.comp, hout.trans h.dec, by rw [e3]; exact h.cs, hsz.trans h.ds, fun x hx hE => ?_⟩,
      fun x hx => ⟨fun hp q hq => ?_, fun hp q hql hq => ?_⟩⟩
    · exact good_congr (by rw [e2]) (by rw [e3]) (fun q _ _ => by rw [e2]) (h.good x hx hE)
    · rw [hbytes q (by omega)]; exact hp q hq
    · rw [hbytes q (by omega)]; exact hp q hql hq
  · intro k m i _ h hi hE hcell
    have hb : i * 65536 + 65536 ≤ len := by omega
    have hsl : (chunkOf (data k) i).length = 65536 := length_chunkOf (by have := hd k; omega)
    have hdl : (chunkOf m.dec i).length = 65536 := length_chunkOf (by have := h.dec; omega)
    obtain ⟨n, g1, g2, g3, g4⟩ := h.good i hi hE
    have hcell : m.dsizes[i]? = some 65536 := hcell
    refine ⟨65536, chunkOf (data k) i, ?_, hsl, rfl⟩
    unfold pgCall
    simp only [sampleChunk]
    rw [g1]
    simp only [bind, Option.bind]
    rw [readBytes_ok g3, hcell]
    simp only
    rw [readBytes_ok (by rw [h.dec]; exact hb)]
    simp only
    rw [show ((m.dec.drop (i * 65536)).take 65536) = chunkOf m.dec i by unfold chunkOf; rfl, g4 _ _ _ hdl, pgResult, if_pos hsl]
  · intro k m i n buf h hi hl hr q hq
    replace hl : buf.length = 65536 := hl
    have hb : i * 65536 + 65536 ≤ len := by omega
    show (splice m.dec (i * 65536) buf)[q]? = _
    rw [getElem?_splice (by have := h.dec; omega), if_pos (by omega), hr, getElem?_chunkOf _ (by omega)]
    congr 1; omega

/-! ## Both -/

/-- The chunks of the threads -/
def Taken (ts : List Nat) (cpc k x : Nat) : Prop := ∃ t, t < T ts k ∧ t * cpc ≤ x ∧ x < t * cpc + cpc

theorem taken_iff {ts : List Nat} {cpc k x : Nat} (hpos : 0 < cpc) : Taken ts cpc k x ↔ x < T ts k * cpc := by
  constructor
  · rintro ⟨t, h1, h2, h3⟩
    have : (t + 1) * cpc ≤ T ts k * cpc := Nat.mul_le_mul_right _ h1
    rw [Nat.add_mul, Nat.one_mul] at this
    omega
  · intro hx
    refine ⟨x / cpc, (Nat.div_lt_iff_lt_mul hpos).2 hx, Nat.div_mul_le_self _ _, ?_⟩
    have := Nat.lt_div_mul_add hpos (a := x)
    omega

theorem fits_of {ts : List Nat} {cpn cpc : Nat} {E : Nat → Nat → Prop} (hpos : 0 < cpc) (hfit : ∀ t ∈ ts, t * cpc ≤ cpn)
    (hbig : cpn < 2 ^ 64) (hE : ∀ k x, Taken ts cpc k x → E k x) : Fits ts ts.length cpn cpc E := by
  refine ⟨hpos, ?_, ?_, hbig, fun k t ht x h1 h2 => hE k x ⟨t, ht, h1, h2⟩⟩
  · intro k hk
    unfold T
    rw [List.getD_eq_getElem?_getD, List.getElem?_eq_none hk]
    rfl
  · intro k t ht
    have hmem : T ts k ∈ ts := by
      have hk : k < ts.length := by
        by_contra hn
        have : T ts k = 0 := by
          unfold T
          rw [List.getD_eq_getElem?_getD, List.getElem?_eq_none (by omega)]
          rfl
        omega
      unfold T
      rw [List.getD_eq_getElem?_getD, List.getElem?_eq_getElem hk]
      exact List.getElem_mem hk
    have h1 := hfit _ hmem
    have h2 : (t + 1) * cpc ≤ T ts k * cpc := Nat.mul_le_mul_right _ ht
    rw [Nat.add_mul, Nat.one_mul] at h2
    omega

theorem minv_start {d : PgDir} {N cpc : Nat} {Stat : Nat → NodeMem → Prop} {P Q : Nat → Nat → NodeMem → Prop}
    {Res : Nat → Nat → Nat → List Byte → Prop} (stop : Bool) (ts : List Nat) (mem : Nat → NodeMem) (hs : ∀ k < N, Stat k (mem k))
    (hq : ∀ k < N, ∀ x, Q k x (mem k)) : MInv d N cpc Stat P Q Res (pgStart stop cpc ts mem) := by
  have hpc : ∀ k w, ((pgStart stop cpc ts mem).th k w).pc = .start ∨ ((pgStart stop cpc ts mem).th k w).pc = .head ∨
      ((pgStart stop cpc ts mem).th k w).pc = .done := by
    intro k w
    simp only [pgStart]
    split
    · cases stop <;> simp
    · simp
  refine ⟨?_, ?_, hs, ?_, fun k hk x _ _ => hq k hk x⟩
  · intro k w h
    rcases hpc k w with h' | h' | h' <;> rw [h'] at h <;> cases h
  · intro k w rc n buf h
    rcases hpc k w with h' | h' | h' <;> rw [h'] at h <;> cases h
  · rintro k hk x ⟨w, t, h1, h2, h3⟩
    exfalso
    simp only [pgStart] at h1 h3
    split at h1
    · rename_i hw
      rw [if_pos hw] at h3
      cases stop
      · simp only [Bool.false_eq_true, if_false] at h1 h3
        cases h1
        omega
      · simp at h1
    · cases h1

section
variable {f g : ChunkFn} {ts : List Nat} {file : List Byte} {j : PgJunk} {len cpn cpc : Nat} {a : PgAddrs} {stop : Bool}

/-- The part of the file for node `k` -/
def part (file : List Byte) (len k : Nat) : List Byte := Pg.padTo len (file.drop (k * len))

theorem start1 (hj1 : ∀ k, (j.csizes k).length = cpn) (hj2 : ∀ k, (j.dsizes k).length = cpn) (k : Nat) :
    Stat1 len cpn (part file len) k (pgNode file j len cpn k) := by
  refine ⟨Pg.pgNode_inp .., List.length_replicate, rfl, ?_, ?_⟩
  · show ((j.csizes k).take cpn).length = cpn
    rw [List.length_take, hj1]; exact Nat.min_self _
  · show ((j.dsizes k).take cpn).length = cpn
    rw [List.length_take, hj2]; exact Nat.min_self _

/-- Everything on the first phase -/
theorem run1 (hc : PgContract f g) (hcpn : cpn = len / 65536) (hpos : 0 < cpc) (hfit : ∀ t ∈ ts, t * cpc ≤ cpn) (hbig : cpn < 2 ^ 64)
    (hj1 : ∀ k, (j.csizes k).length = cpn) (hj2 : ∀ k, (j.dsizes k).length = cpn) :
    Fits ts ts.length cpn cpc (fun _ _ => True) ∧
    Phase .comp f g a ts.length cpn (fun _ _ => True) (Stat1 len cpn (part file len)) (fun k i m => Good g (part file len k) m i)
      (fun _ _ _ => True) (Res1 g (part file len)) ∧
    TInv ts cpc (pgStart stop cpc ts (pgNode file j len cpn)) ∧
    MInv .comp ts.length cpc (Stat1 len cpn (part file len)) (fun k i m => Good g (part file len k) m i) (fun _ _ _ => True)
      (Res1 g (part file len)) (pgStart stop cpc ts (pgNode file j len cpn)) :=
  ⟨fits_of hpos hfit hbig fun _ _ _ => trivial, phase1 hc a (fun _ => Pg.length_padTo _ _) hcpn, TInv.start stop cpc ts _,
    minv_start stop ts _ (fun k _ => start1 hj1 hj2 k) fun _ _ _ => trivial⟩

/-- Everything on the second phase, after the first -/
theorem run2 (hc : PgContract f g) (hcpn : cpn = len / 65536) (hpos : 0 < cpc) (hfit : ∀ t ∈ ts, t * cpc ≤ cpn) (hbig : cpn < 2 ^ 64)
    (hj1 : ∀ k, (j.csizes k).length = cpn) (hj2 : ∀ k, (j.dsizes k).length = cpn) {n : Nat} {s : PgSys}
    (h : PgExec .comp f g a stop cpc (pgStart stop cpc ts (pgNode file j len cpn)) n s) (hdone : s.Done) :
    Fits ts ts.length cpn cpc (Taken ts cpc) ∧
    Phase .dec f g a ts.length cpn (Taken ts cpc) (Stat2 g len cpn (part file len) (Taken ts cpc))
      (fun k x m => ∀ q, q / 65536 = x → m.dec[q]? = (part file len k)[q]?)
      (fun _ x m => ∀ q < len, q / 65536 = x → m.dec[q]? = some 0) (fun k i _ buf => buf = chunkOf (part file len k) i) ∧
    TInv ts cpc (pgStart stop cpc ts s.mem) ∧
    MInv .dec ts.length cpc (Stat2 g len cpn (part file len) (Taken ts cpc))
      (fun k x m => ∀ q, q / 65536 = x → m.dec[q]? = (part file len k)[q]?)
      (fun _ x m => ∀ q < len, q / 65536 = x → m.dec[q]? = some 0) (fun k i _ buf => buf = chunkOf (part file len k) i)
      (pgStart stop cpc ts s.mem) := by
  obtain ⟨r1, r2, r3, r4⟩ := run1 (a := a) (stop := stop) (file := file) (j := j) hc hcpn hpos hfit hbig hj1 hj2
  obtain ⟨e1, e2⟩ := inv_exec r1 r2 r3 r4 h
  refine ⟨fits_of hpos hfit hbig fun _ _ h => h, phase2 a (fun _ => Pg.length_padTo _ _) hcpn, TInv.start stop cpc ts _,
    minv_start stop ts _ (fun k hk => ?_) fun k hk x q hq _ => ?_⟩
  · have hs := e2.stat k hk
    refine ⟨hs.inp, hs.comp, by rw [hs.dec, List.length_replicate], hs.cs, hs.ds, fun i hi hE => e2.don k hk i ?_⟩
    obtain ⟨t, h1, h2, h3⟩ := hE
    exact all_done e1 hdone h1 h2 h3
  · rw [(e2.stat k hk).dec, List.getElem?_replicate, if_pos hq]

/-- What the second phase leaves -/
theorem result (hc : PgContract f g) (hcpn : cpn = len / 65536) (hpos : 0 < cpc) (hfit : ∀ t ∈ ts, t * cpc ≤ cpn) (hbig : cpn < 2 ^ 64)
    (hj1 : ∀ k, (j.csizes k).length = cpn) (hj2 : ∀ k, (j.dsizes k).length = cpn) {n n2 : Nat} {s s2 : PgSys}
    (h : PgExec .comp f g a stop cpc (pgStart stop cpc ts (pgNode file j len cpn)) n s) (hdone : s.Done)
    (h2 : PgExec .dec f g a stop cpc (pgStart stop cpc ts s.mem) n2 s2) (hdone2 : s2.Done) {k : Nat} (hk : k < ts.length) :
    (s2.mem k).inp = part file len k ∧
    (s2.mem k).dec = (part file len k).take (T ts k * cpc * 65536) ++ List.replicate (len - T ts k * cpc * 65536) 0 := by
  obtain ⟨r1, r2, r3, r4⟩ := run2 hc hcpn hpos hfit hbig hj1 hj2 h hdone
  obtain ⟨e1, e2⟩ := inv_exec r1 r2 r3 r4 h2
  have hs := e2.stat k hk
  refine ⟨hs.inp, ?_⟩
  have hpl : (part file len k).length = len := Pg.length_padTo _ _
  have htc : T ts k * cpc ≤ cpn := by
    apply hfit
    unfold T
    rw [List.getD_eq_getElem?_getD, List.getElem?_eq_getElem hk]
    exact List.getElem_mem hk
  have htl : T ts k * cpc * 65536 ≤ len := Nat.le_trans (Nat.mul_le_mul_right _ htc) (by omega)
  apply List.ext_getElem?
  intro i
  by_cases hi : i < T ts k * cpc * 65536
  · have h1 : i / 65536 < T ts k * cpc := (Nat.div_lt_iff_lt_mul (by decide)).2 hi
    obtain ⟨t, t1, t2, t3⟩ := (taken_iff hpos).2 h1
    rw [List.getElem?_append_left (by rw [List.length_take, hpl]; omega), List.getElem?_take_of_lt hi]
    exact e2.don k hk _ (all_done e1 hdone2 t1 t2 t3) i rfl
  · rw [List.getElem?_append_right (by rw [List.length_take, hpl]; omega), List.getElem?_replicate, List.length_take, hpl]
    have h1 : ¬ i / 65536 < T ts k * cpc := fun h => hi ((Nat.div_lt_iff_lt_mul (by decide)).1 h)
    by_cases h2 : i < len
    · rw [if_pos (by omega)]
      obtain ⟨n1, n2⟩ := not_done e1 hdone2 (k := k) (x := i / 65536) fun t ht hh => h1 ((taken_iff hpos).1 ⟨t, ht, hh⟩)
      exact e2.unt k hk _ n1 n2 i h2 rfl
    · rw [if_neg (by omega), List.getElem?_eq_none (by have := hs.dec; omega)]

end
end PgI
end Lib842
