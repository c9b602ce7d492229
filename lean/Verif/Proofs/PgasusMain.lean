import Verif.Proofs.Pgasus
/-!
# The sample programs for NUMA machines as a whole
-/

namespace Lib842
namespace Pg

/-- The first `n` bytes of `l`, continued with zeros -/
def padTo (n : Nat) (l : List Byte) : List Byte := l.take n ++ List.replicate (n - l.length) 0

theorem length_padTo (n : Nat) (l : List Byte) : (padTo n l).length = n := by
  unfold padTo
  simp only [List.length_append, List.length_take, List.length_replicate]
  omega

theorem get_padTo (n : Nat) (l : List Byte) (i : Nat) (h : i < n) : (padTo n l)[i]? = some (l.getD i 0) := by
  unfold padTo
  by_cases hi : i < l.length
  · rw [List.getElem?_append_left (by rw [List.length_take]; omega), List.getElem?_take_of_lt h,
      List.getElem?_eq_getElem hi, List.getD_eq_getElem?_getD, List.getElem?_eq_getElem hi]
    rfl
  · rw [List.getElem?_append_right (by rw [List.length_take]; omega), List.getElem?_replicate, List.length_take,
      if_pos (by omega), List.getD_eq_getElem?_getD, List.getElem?_eq_none (by omega)]
    rfl

theorem pgNode_inp (file : List Byte) (j : PgJunk) (len cpn k : Nat) :
    (pgNode file j len cpn k).inp = padTo len (file.drop (k * len)) := by
  unfold pgNode padTo
  simp only
  congr 2
  rw [List.length_take]
  omega

theorem padTo_step (N len : Nat) (l : List Byte) :
    padTo ((N + 1) * len) l = padTo (N * len) l ++ padTo len (l.drop (N * len)) := by
  apply List.ext_getElem?
  intro i
  rw [Nat.add_mul, Nat.one_mul]
  by_cases h1 : i < N * len
  · rw [get_padTo _ _ _ (by omega), List.getElem?_append_left (by rw [length_padTo]; exact h1), get_padTo _ _ _ h1]
  · rw [List.getElem?_append_right (by rw [length_padTo]; omega), length_padTo]
    by_cases h2 : i < N * len + len
    · rw [get_padTo _ _ _ h2, get_padTo _ _ _ (by omega), List.getD_eq_getElem?_getD, List.getD_eq_getElem?_getD, List.getElem?_drop]
      congr 3; omega
    · rw [List.getElem?_eq_none (by rw [length_padTo]; omega), List.getElem?_eq_none (by rw [length_padTo]; omega)]

theorem flatten_parts (len : Nat) (l : List Byte) (N : Nat) :
    ((List.range N).map fun k => padTo len (l.drop (k * len))).flatten = padTo (N * len) l := by
  induction N with
  | zero => simp [padTo]
  | succ N ih => rw [List.range_succ, List.map_append, List.flatten_append, ih, padTo_step]; simp

theorem pgFileLength_eq (n : Nat) (h : n % 2 ^ 32 < 2 ^ 31) : pgFileLength n = n % 2 ^ 32 := by
  unfold pgFileLength
  rw [BitVec.signExtend_eq_setWidth_of_msb_false]
  · rw [BitVec.toNat_setWidth, BitVec.toNat_ofNat]
    omega
  · rw [BitVec.msb_eq_decide, BitVec.toNat_ofNat, decide_eq_false_iff_not]
    omega

theorem pgPadded_eq {p x : Nat} (hp : 0 < p) (hp2 : p < 2 ^ 31) (hx : x < 2 ^ 31) :
    pgPadded p x = (x + 65536 * p - 1) / (65536 * p) * (65536 * p) := by
  unfold pgPadded sampleChunk
  rw [Nat.mod_eq_of_lt (by omega)]

section
variable {f g : ChunkFn}

theorem outcome (hc : PgContract f g) (stop : Bool) (a : PgAddrs) (j : PgJunk) (avail p : Nat) (ts : List Nat)
    (sched1 sched2 : List (Nat × Nat) → List (Nat × Nat)) (file : List Byte) (len cpn cpc : Nat)
    (hts : ts ≠ []) (hp : ts.length ≤ p) (hp2 : p < 2 ^ 31) (ht2 : ∀ t ∈ ts, t < 2 ^ 31)
    (hx : 0 < file.length % 2 ^ 32) (hx2 : file.length % 2 ^ 32 < 2 ^ 31)
    (hs1 : ∀ l, (sched1 l).Perm l) (hs2 : ∀ l, (sched2 l).Perm l)
    (hlen : len = (file.length % 2 ^ 32 + 65536 * p - 1) / (65536 * p) * (65536 * p) / ts.length)
    (hcpn : cpn = len / 65536) (hcpc : cpc = cpn / (p / ts.length))
    (hav : len * 2 ≤ avail) (hj1 : ∀ k, (j.csizes k).length = cpn) (hj2 : ∀ k, (j.dsizes k).length = cpn) :
    0 < cpc ∧
    ((∃ t ∈ ts, cpn < t * cpc) → pgMain stop f g a j avail p ts sched1 sched2 (some (some file)) = .ub) ∧
    ((∀ t ∈ ts, t * cpc ≤ cpn) → ∃ dec : List (List Byte), dec.length = ts.length ∧
      (∀ k t, ts[k]? = some t →
        dec[k]? = some ((padTo len (file.drop (k * len))).take (t * cpc * 65536) ++ List.replicate (len - t * cpc * 65536) 0)) ∧
      pgMain stop f g a j avail p ts sched1 sched2 (some (some file)) =
        .ok ⟨if dec = (List.range ts.length).map (fun k => padTo len (file.drop (k * len))) then 0 else -47, dec⟩) := by
  have hN : 0 < ts.length := List.length_pos_iff.2 hts
  have hd1 : 1 ≤ p / ts.length := (Nat.le_div_iff_mul_le hN).2 (by omega)
  generalize hx0 : file.length % 2 ^ 32 = x at *
  generalize hN0 : ts.length = N at *
  have hp0 : 0 < p := by omega
  -- the number of rounds
  obtain ⟨q, hq⟩ : ∃ q, q = (x + 65536 * p - 1) / (65536 * p) := ⟨_, rfl⟩
  have hq1 : 1 ≤ q := by rw [hq]; exact (Nat.le_div_iff_mul_le (by omega)).2 (by omega)
  have hqt : q * (65536 * p) ≤ x + 65536 * p := by
    rw [hq]; have := Nat.div_mul_le_self (x + 65536 * p - 1) (65536 * p); omega
  rw [← hq] at hlen
  have hcpn' : cpn = q * p / N := by
    rw [hcpn, hlen, Nat.div_div_eq_div_mul, Nat.mul_comm N 65536, ← Nat.div_div_eq_div_mul,
      show q * (65536 * p) = q * p * 65536 by rw [Nat.mul_comm 65536 p, Nat.mul_assoc], Nat.mul_div_cancel _ (by decide)]
  have hpos : 0 < cpc := by
    rw [hcpc]
    refine Nat.div_pos ?_ (by omega)
    rw [hcpn']
    exact Nat.div_le_div_right (by calc p = 1 * p := (Nat.one_mul p).symm
                                        _ ≤ q * p := Nat.mul_le_mul_right _ hq1)
  have hqp : q * p ≤ 2 ^ 15 + 2 ^ 31 := by
    have : q * (65536 * p) = 65536 * (q * p) := by
      rw [← Nat.mul_assoc, Nat.mul_comm q 65536, Nat.mul_assoc]
    rw [this] at hqt
    omega
  have hcb : cpc ≤ 2 ^ 15 + 2 ^ 31 := by
    have h1 : cpc ≤ cpn := by rw [hcpc]; exact Nat.div_le_self _ _
    have h2 : cpn ≤ q * p := by rw [hcpn']; exact Nat.div_le_self _ _
    omega
  have hcl : cpn * 65536 ≤ len := by rw [hcpn]; exact Nat.div_mul_le_self _ _
  -- the program
  have hmain : pgMain stop f g a j avail p ts sched1 sched2 (some (some file)) = (do
        let ms := (List.range N).map (pgNode file j len cpn)
        let ms ← pgAll (pgCompress f a) stop cpn cpc (sched1 (pgThreads ts)) ms
        let ms ← pgAll (pgDecompress g a) stop cpn cpc (sched2 (pgThreads ts)) ms
        .ok ⟨if ms.all fun m => decide (m.inp = m.dec) then 0 else -47, ms.map (·.dec)⟩) := by
    unfold pgMain
    have e1 : pgPadded p (pgFileLength file.length) / N = len := by
      rw [pgFileLength_eq _ (by omega), hx0, pgPadded_eq hp0 hp2 hx2, ← hq, hlen]
    simp only [hN0, e1]
    rw [if_neg (by omega), show len / sampleChunk = cpn from hcpn.symm, ← hcpc, if_neg]
    have : len * 2 % 2 ^ 64 ≤ len * 2 := Nat.mod_le _ _
    omega
  -- the data of the nodes
  let data : Nat → List Byte := fun k => padTo len (file.drop (k * len))
  have hdl : ∀ k, (data k).length = len := fun k => length_padTo _ _
  have hthr : ∀ kt ∈ pgThreads ts, kt.1 < N ∧ kt.2 * cpc + cpc < 2 ^ 64 ∧ ∃ t ∈ ts, ts[kt.1]? = some t ∧ kt.2 < t := by
    rintro ⟨k, t⟩ h
    obtain ⟨n, h1, h2⟩ := mem_threads.1 h
    obtain ⟨h3, h4⟩ := List.getElem?_eq_some_iff.1 h1
    have h5 : n ∈ ts := List.mem_of_getElem? h1
    refine ⟨by omega, ?_, n, h5, h1, h2⟩
    have h6 := ht2 n h5
    have : (t + 1) * cpc ≤ 2 ^ 31 * (2 ^ 15 + 2 ^ 31) := Nat.mul_le_mul (by omega) hcb
    rw [Nat.add_mul, Nat.one_mul] at this
    simp only
    omega
  have hinit : ∀ k < N, ∃ m, ((List.range N).map (pgNode file j len cpn))[k]? = some m ∧
      I1 g len cpn (data k) (fun _ => False) m := by
    intro k hk
    refine ⟨pgNode file j len cpn k, by rw [List.getElem?_map, List.getElem?_range hk]; rfl, ?_⟩
    refine ⟨pgNode_inp .., ?_, rfl, ?_, ?_, fun _ _ h => h.elim⟩
    · exact List.length_replicate
    · show ((j.csizes k).take cpn).length = cpn
      rw [List.length_take, hj1]; exact Nat.min_self _
    · show ((j.dsizes k).take cpn).length = cpn
      rw [List.length_take, hj2]; exact Nat.min_self _
  have hcpn1 : cpn = len / 65536 := hcpn
  obtain ⟨p1, p2⟩ := all_spec (body := pgCompress f a) (I := fun k D m => I1 g len cpn (data k) D m) (cpn := cpn) (cpc := cpc) (N := N)
    (E := fun _ _ => True) stop hpos
    (fun k hk D m i h hi _ => step1 hc (hdl k) hcpn1 a k h i hi)
    (fun k hk D m i h hi => step1_ub a k h i hi)
    (fun k hk D D' m hD h => ⟨h.inp, h.comp, h.dec, h.cs, h.ds, fun i hi hd => h.good i hi ((hD i).2 hd)⟩)
    (sched1 (pgThreads ts)) (fun _ _ => False) ((List.range N).map (pgNode file j len cpn)) (by simp) hinit
    (fun kt hkt => by
      obtain ⟨h1, h2, -⟩ := hthr kt ((hs1 _).mem_iff.1 hkt)
      exact ⟨h1, h2, fun _ _ _ => trivial⟩)
  refine ⟨hpos, fun hub => ?_, fun hfit => ?_⟩
  · obtain ⟨t, ht, hlt⟩ := hub
    obtain ⟨k, hk⟩ := List.mem_iff_getElem?.1 ht
    have ht0 : 0 < t := by
      rcases Nat.eq_zero_or_pos t with h | h
      · rw [h, Nat.zero_mul] at hlt; omega
      · exact h
    have := p2 ⟨(k, t - 1), (hs1 _).mem_iff.2 (mem_threads.2 ⟨t, hk, by omega⟩), by
      simp only
      have h1 : t * cpc = (t - 1) * cpc + cpc := by
        conv => lhs; rw [show t = (t - 1) + 1 by omega]
        rw [Nat.add_mul, Nat.one_mul]
      omega⟩
    rw [hmain]
    show BRes.bind (pgAll (pgCompress f a) stop cpn cpc (sched1 (pgThreads ts)) _) _ = _
    rw [this]
    rfl
  · have hfits : ∀ kt ∈ pgThreads ts, kt.2 * cpc + cpc ≤ cpn := by
      intro kt hkt
      obtain ⟨-, -, t, ht, -, hlt⟩ := hthr kt hkt
      have h1 := hfit t ht
      have h2 : (kt.2 + 1) * cpc ≤ t * cpc := Nat.mul_le_mul_right _ hlt
      rw [Nat.add_mul, Nat.one_mul] at h2
      omega
    obtain ⟨ms1, r1, r2, r3⟩ := p1 fun kt hkt => hfits kt ((hs1 _).mem_iff.1 hkt)
    let E : Nat → Nat → Prop := fun k x => False ∨ ∃ t, (k, t) ∈ sched1 (pgThreads ts) ∧ Mine cpc t x
    obtain ⟨q1, -⟩ := all_spec (body := pgDecompress g a) (I := fun k D m => I2 g len cpn (data k) (E k) D m) (cpn := cpn) (cpc := cpc)
      (N := N) (E := E) stop hpos
      (fun k hk D m i h hi hE => step2 hc (hdl k) hcpn1 a k h i hi hE)
      (fun k hk D m i h hi => step2_ub a k h i hi)
      (fun k hk D D' m hD h => ⟨h.inp, h.comp, h.dlen, h.cs, h.ds, h.good, fun q h1 => h.done q ((hD _).2 h1),
        fun q h1 h2 => h.zero q h1 fun h3 => h2 ⟨(hD _).1 h3.1, h3.2⟩⟩)
      (sched2 (pgThreads ts)) (fun _ _ => False) ms1 r2
      (fun k hk => by
        obtain ⟨m, h1, h2⟩ := r3 k hk
        exact ⟨m, h1, h2.inp, h2.comp, by rw [h2.dec, List.length_replicate], h2.cs, h2.ds, h2.good,
          fun q hq => hq.elim, fun q hq _ => by rw [h2.dec, List.getElem?_replicate, if_pos hq]⟩)
      (fun kt hkt => by
        have hmem := (hs2 _).mem_iff.1 hkt
        obtain ⟨h1, h2, -⟩ := hthr kt hmem
        exact ⟨h1, h2, fun x hx _ => .inr ⟨kt.2, (hs1 _).mem_iff.2 hmem, hx⟩⟩)
    obtain ⟨ms2, s1, s2, s3⟩ := q1 fun kt hkt => hfits kt ((hs2 _).mem_iff.1 hkt)
    refine ⟨ms2.map (·.dec), by rw [List.length_map, s2], fun k t hk => ?_, ?_⟩
    · obtain ⟨hkN, -⟩ := List.getElem?_eq_some_iff.1 hk
      obtain ⟨m, m1, m2⟩ := s3 k (by omega)
      rw [List.getElem?_map, m1]
      have htc := hfit t (List.mem_of_getElem? hk)
      have hD : ∀ x, (False ∨ ∃ t', (k, t') ∈ sched2 (pgThreads ts) ∧ Mine cpc t' x) ↔ x < t * cpc := by
        intro x
        constructor
        · rintro (h | ⟨t', h1, h2, h3⟩)
          · exact h.elim
          · obtain ⟨n, h4, h5⟩ := mem_threads.1 ((hs2 _).mem_iff.1 h1)
            rw [hk] at h4
            cases h4
            have : (t' + 1) * cpc ≤ t * cpc := Nat.mul_le_mul_right _ h5
            rw [Nat.add_mul, Nat.one_mul] at this
            omega
        · intro hx
          refine .inr ⟨x / cpc, (hs2 _).mem_iff.2 (mem_threads.2 ⟨t, hk, (Nat.div_lt_iff_lt_mul hpos).2 hx⟩),
            Nat.div_mul_le_self _ _, ?_⟩
          have := Nat.lt_div_mul_add hpos (a := x)
          omega
      show some m.dec = _
      congr 1
      apply List.ext_getElem?
      intro i
      have htl : t * cpc * 65536 ≤ len := Nat.le_trans (Nat.mul_le_mul_right _ htc) hcl
      by_cases hi : i < t * cpc * 65536
      · have h1 : i / 65536 < t * cpc := (Nat.div_lt_iff_lt_mul (by decide)).2 hi
        rw [m2.done i ((hD _).2 h1) (by omega), List.getElem?_append_left (by rw [List.length_take, length_padTo]; omega),
          List.getElem?_take_of_lt hi]
      · rw [List.getElem?_append_right (by rw [List.length_take, length_padTo]; omega), List.getElem?_replicate, List.length_take,
          length_padTo]
        have h1 : ¬ i / 65536 < t * cpc := fun h => hi ((Nat.div_lt_iff_lt_mul (by decide)).1 h)
        by_cases h2 : i < len
        · rw [m2.zero i h2 fun h => h1 ((hD _).1 h.1), if_pos (by omega)]
        · rw [if_neg (by omega), List.getElem?_eq_none (by have := m2.dlen; omega)]
    · rw [hmain]
      show BRes.bind (pgAll (pgCompress f a) stop cpn cpc (sched1 (pgThreads ts)) _) _ = _
      rw [r1]
      show BRes.bind (pgAll (pgDecompress g a) stop cpn cpc (sched2 (pgThreads ts)) _) _ = _
      rw [s1]
      show BRes.ok (PgOut.mk _ _) = _
      congr 2
      have : (ms2.all fun m => decide (m.inp = m.dec)) = true ↔ ms2.map (·.dec) = (List.range N).map data := by
        rw [List.all_eq_true]
        constructor
        · intro h
          apply List.ext_getElem?
          intro k
          by_cases hk : k < N
          · obtain ⟨m, m1, m2⟩ := s3 k hk
            have := of_decide_eq_true (h m (List.mem_of_getElem? m1))
            rw [List.getElem?_map, m1, List.getElem?_map, List.getElem?_range hk]
            exact congrArg some (this.symm.trans m2.inp)
          · rw [List.getElem?_eq_none (by rw [List.length_map]; omega), List.getElem?_eq_none (by simp; omega)]
        · intro h m hm
          obtain ⟨k, hk⟩ := List.mem_iff_getElem?.1 hm
          obtain ⟨hk', -⟩ := List.getElem?_eq_some_iff.1 hk
          obtain ⟨m', m1, m2⟩ := s3 k (by omega)
          rw [hk] at m1
          cases m1
          have := congrArg (·[k]?) h
          rw [List.getElem?_map, hk, List.getElem?_map, List.getElem?_range (by omega)] at this
          injection this with this
          exact decide_eq_true (m2.inp.trans this.symm)
      by_cases hall : (ms2.all fun m => decide (m.inp = m.dec)) = true
      · rw [if_pos hall, if_pos (this.1 hall)]
      · rw [if_neg hall, if_neg fun h => hall (this.2 h)]
end

/-- Bit `i` of `z` is the disjunction of the bits `i`, …, `i + w - 1` of `y`. -/
def Smear (w : Nat) (y z : BitVec 64) : Prop := ∀ i, z.getLsbD i = true ↔ ∃ j, i ≤ j ∧ j < i + w ∧ y.getLsbD j = true

theorem Smear.step {w : Nat} {y z : BitVec 64} (h : Smear w y z) : Smear (w + w) y (z ||| z >>> w) := by
  intro i
  rw [BitVec.getLsbD_or, BitVec.getLsbD_ushiftRight, Bool.or_eq_true, h i, h (w + i)]
  constructor
  · rintro (⟨j, h1, h2, h3⟩ | ⟨j, h1, h2, h3⟩)
    · exact ⟨j, h1, by omega, h3⟩
    · exact ⟨j, by omega, by omega, h3⟩
  · rintro ⟨j, h1, h2, h3⟩
    by_cases hj : j < i + w
    · exact .inl ⟨j, h1, hj, h3⟩
    · exact .inr ⟨j, by omega, by omega, h3⟩

theorem Smear.all {y z : BitVec 64} (h : Smear 64 y z) (hy : y ≠ 0) : z.toNat = 2 ^ (y.toNat.log2 + 1) - 1 := by
  have hy0 : y.toNat ≠ 0 := fun hx => hy (BitVec.eq_of_toNat_eq hx)
  apply Nat.eq_of_testBit_eq
  intro i
  rw [Nat.testBit_two_pow_sub_one, BitVec.testBit_toNat, Bool.eq_iff_iff, decide_eq_true_iff, h i]
  constructor
  · rintro ⟨j, h1, h2, h3⟩
    rw [← BitVec.testBit_toNat] at h3
    have := Nat.ge_two_pow_of_testBit h3
    have := (Nat.le_log2 hy0).2 this
    omega
  · intro hi
    have hl : y.toNat.log2 < 64 := (Nat.log2_lt hy0).2 y.isLt
    refine ⟨y.toNat.log2, by omega, by omega, ?_⟩
    rw [← BitVec.testBit_toNat]
    exact Nat.testBit_log2 hy0

theorem nextPow2_spec (x : BitVec 64) (h0 : 0 < x.toNat) (h1 : x.toNat ≤ 2 ^ 63) :
    ∃ k, (nextPow2 x).toNat = 2 ^ k ∧ x.toNat ≤ 2 ^ k ∧ 2 ^ k < 2 * x.toNat := by
  have hy : (x - 1).toNat = x.toNat - 1 := by
    rw [BitVec.toNat_sub]
    have := x.isLt
    have h2 : (1 : BitVec 64).toNat = 1 := rfl
    omega
  have hs : Smear 64 (x - 1) (nextPow2 x - 1) := by
    have s0 : Smear 1 (x - 1) (x - 1) := fun i =>
      ⟨fun h => ⟨i, Nat.le_refl _, by omega, h⟩, fun ⟨j, h1, h2, h3⟩ => by rwa [show j = i by omega] at h3⟩
    have := s0.step.step.step.step.step.step
    rw [show nextPow2 x - 1 = _ from BitVec.add_sub_cancel _ _]
    exact this
  by_cases hz : x - 1 = 0
  · have hx : x = 1 := by
      have h3 := congrArg BitVec.toNat hz
      rw [hy] at h3
      have h4 : (0 : BitVec 64).toNat = 0 := rfl
      exact BitVec.eq_of_toNat_eq (show x.toNat = 1 by omega)
    subst hx
    exact ⟨0, by decide, by decide, by decide⟩
  · have hall := hs.all hz
    have hlog : (x - 1).toNat.log2 < 63 := by
      refine (Nat.log2_lt ?_).2 (by omega)
      intro hx
      exact hz (BitVec.eq_of_toNat_eq hx)
    have hy0 : x.toNat - 1 ≠ 0 := by
      rw [← hy]; intro hx; exact hz (BitVec.eq_of_toNat_eq hx)
    rw [hy] at hall hlog
    have hp : 2 ^ ((x.toNat - 1).log2 + 1) ≤ 2 ^ 63 := Nat.pow_le_pow_right (by decide) (by omega)
    have hle := Nat.log2_self_le hy0
    have hlt := Nat.lt_log2_self (n := x.toNat - 1)
    have hpos : 0 < 2 ^ (x.toNat - 1).log2 := Nat.pow_pos (by decide)
    have e : nextPow2 x = (nextPow2 x - 1) + 1 := (BitVec.sub_add_cancel _ _).symm
    refine ⟨(x.toNat - 1).log2 + 1, ?_, by omega, by rw [Nat.pow_succ]; omega⟩
    rw [e, BitVec.toNat_add, hall, show (1 : BitVec 64).toNat = 1 from rfl]
    have : 0 < 2 ^ ((x.toNat - 1).log2 + 1) := Nat.pow_pos (by decide)
    omega

theorem pgFileLength_neg (n : Nat) (h : 2 ^ 31 ≤ n % 2 ^ 32) : pgFileLength n = 2 ^ 64 - 2 ^ 32 + n % 2 ^ 32 := by
  unfold pgFileLength
  rw [BitVec.toNat_signExtend, BitVec.toNat_setWidth, BitVec.toNat_ofNat, BitVec.msb_eq_decide, BitVec.toNat_ofNat,
    decide_eq_true (by omega)]
  simp only [if_true]
  omega

/-- Nothing to do: every thread goes out of bounds at once. -/
theorem nothing (stop : Bool) (f g : ChunkFn) (a : PgAddrs) (j : PgJunk) (avail p : Nat) (ts : List Nat)
    (sched1 sched2 : List (Nat × Nat) → List (Nat × Nat)) (file : List Byte)
    (hp : ts.length ≤ p) (ht : ∃ t ∈ ts, 0 < t) (hpad : pgPadded p (pgFileLength file.length) = 0)
    (hs1 : ∀ l, (sched1 l).Perm l) :
    pgMain stop f g a j avail p ts sched1 sched2 (some (some file)) = .ub := by
  obtain ⟨t, ht, ht0⟩ := ht
  obtain ⟨k, hk⟩ := List.mem_iff_getElem?.1 ht
  obtain ⟨hkl, -⟩ := List.getElem?_eq_some_iff.1 hk
  have hd1 : 1 ≤ p / ts.length := (Nat.le_div_iff_mul_le (by omega)).2 (by omega)
  have hmem : (k, 0) ∈ sched1 (pgThreads ts) := (hs1 _).mem_iff.2 (mem_threads.2 ⟨t, hk, ht0⟩)
  have hthr : ∀ kt ∈ sched1 (pgThreads ts), kt.1 < ts.length := by
    rintro ⟨k, t⟩ h
    obtain ⟨n, h1, -⟩ := mem_threads.1 ((hs1 _).mem_iff.1 h)
    exact (List.getElem?_eq_some_iff.1 h1).1
  unfold pgMain
  simp only [hpad, Nat.zero_div, Nat.zero_mul, Nat.zero_mod]
  rw [if_neg (by omega), if_neg (by omega)]
  generalize sched1 (pgThreads ts) = l at *
  cases l with
  | nil => cases hmem
  | cons kt l =>
    have hk1 := hthr kt (List.mem_cons_self ..)
    have hth : ∀ body : Nat → Nat → NodeMem → BRes (NodeMem × Bool), (∀ k, body k 0 (pgNode file j 0 0 kt.1) = .ub) →
        pgThread body stop 0 0 kt ((List.range ts.length).map (pgNode file j 0 0)) = .ub := by
      intro body hb
      unfold pgThread
      rw [List.getElem?_map, List.getElem?_range hk1]
      simp only [Option.map_some, BRes.access, bind, BRes.bind, Nat.mul_zero, Nat.zero_add]
      rw [pgLoop, if_pos (Nat.zero_le _), hb]
      rfl
    have := hth (pgCompress f a) fun k => by
      unfold pgCompress
      have : (pgNode file j 0 0 kt.1).inp.length = 0 := by rw [pgNode_inp, length_padTo]
      rw [readBytes_none (by rw [this, sampleChunk]; omega)]
      rfl
    show BRes.bind (BRes.bind (pgThread (pgCompress f a) stop 0 0 kt _) _) _ = _
    rw [this]
    rfl

/-- `inp` is never written. -/
theorem compress_inp {f : ChunkFn} {a : PgAddrs} {k i : Nat} {m m' : NodeMem} {c : Bool}
    (h : pgCompress f a k i m = .ok (m', c)) : m'.inp = m.inp := by
  unfold pgCompress at h
  cases h1 : readBytes m.inp (i * sampleChunk) sampleChunk with
  | none => rw [h1] at h; cases h
  | some src =>
    cases h2 : readBytes m.comp (i * (sampleChunk * 2)) (sampleChunk * 2) with
    | none => rw [h1, h2] at h; cases h
    | some dst =>
      cases h3 : m.csizes[i]? with
      | none => rw [h1, h2, h3] at h; cases h
      | some _ =>
        rw [h1, h2, h3] at h
        simp only [BRes.access, bind, BRes.bind] at h
        split at h
        · cases h
        · cases h
        · rename_i buf _
          cases h4 : writeBytes m.comp (i * (sampleChunk * 2)) buf with
          | none => rw [h4] at h; cases h
          | some c => rw [h4] at h; cases h; rfl

theorem decompress_inp {g : ChunkFn} {a : PgAddrs} {k i : Nat} {m m' : NodeMem} {c : Bool}
    (h : pgDecompress g a k i m = .ok (m', c)) : m'.inp = m.inp := by
  unfold pgDecompress at h
  cases h0 : m.csizes[i]? with
  | none => rw [h0] at h; cases h
  | some n =>
    cases h1 : readBytes m.comp (i * (sampleChunk * 2)) n with
    | none => rw [h0] at h; simp only [BRes.access, bind, BRes.bind, h1] at h; cases h
    | some src =>
      cases h2 : readBytes m.dec (i * sampleChunk) sampleChunk with
      | none => rw [h0] at h; simp only [BRes.access, bind, BRes.bind, h1, h2] at h; cases h
      | some dst =>
        cases h3 : m.dsizes[i]? with
        | none => rw [h0] at h; simp only [BRes.access, bind, BRes.bind, h1, h2, h3] at h; cases h
        | some _ =>
          rw [h0] at h
          simp only [BRes.access, bind, BRes.bind, h1, h2, h3] at h
          split at h
          · cases h
          · cases h
          · rename_i buf _
            cases h4 : writeBytes m.dec (i * sampleChunk) buf with
            | none => rw [h4] at h; cases h
            | some c => rw [h4] at h; cases h; rfl

theorem loop_inp {body : Nat → NodeMem → BRes (NodeMem × Bool)} (hb : ∀ i m m' c, body i m = .ok (m', c) → m'.inp = m.inp)
    (stop : Bool) (e : Nat) : ∀ fuel i m m', pgLoop body stop e fuel i m = .ok m' → m'.inp = m.inp := by
  intro fuel
  induction fuel with
  | zero => intro i m m' h; cases h
  | succ fuel ih =>
    intro i m m' h
    rw [pgLoop] at h
    by_cases hi : i ≤ e
    · rw [if_pos hi] at h
      cases hx : body i m with
      | ok r =>
        obtain ⟨m1, c⟩ := r
        rw [hx] at h
        simp only [bind, BRes.bind] at h
        by_cases hc : (stop && !c) = true
        · rw [if_pos hc] at h
          cases h
          exact hb _ _ _ _ hx
        · rw [if_neg hc] at h
          exact (ih _ _ _ h).trans (hb _ _ _ _ hx)
      | _ => rw [hx] at h; cases h
    · rw [if_neg hi] at h
      cases h
      rfl

theorem all_inp {body : Nat → Nat → NodeMem → BRes (NodeMem × Bool)} (hb : ∀ k i m m' c, body k i m = .ok (m', c) → m'.inp = m.inp)
    (stop : Bool) (cpn cpc : Nat) : ∀ l ms ms', pgAll body stop cpn cpc l ms = .ok ms' → ms'.map (·.inp) = ms.map (·.inp) := by
  intro l
  induction l with
  | nil => intro ms ms' h; cases h; rfl
  | cons kt l ih =>
    intro ms ms' h
    change BRes.bind (pgThread body stop cpn cpc kt ms) _ = _ at h
    cases hx : pgThread body stop cpn cpc kt ms with
    | ok ms1 =>
      rw [hx] at h
      rw [ih _ _ h]
      unfold pgThread at hx
      cases h1 : ms[kt.1]? with
      | none => rw [h1] at hx; cases hx
      | some m =>
        rw [h1] at hx
        simp only [BRes.access, bind, BRes.bind] at hx
        cases h2 : pgLoop (body kt.1) stop ((kt.2 * cpc + cpc + 2 ^ 64 - 1) % 2 ^ 64) (cpn + 1) (kt.2 * cpc) m with
        | ok m2 =>
          rw [h2] at hx
          cases hx
          have := loop_inp (hb kt.1) _ _ _ _ _ _ h2
          apply List.ext_getElem?
          intro k
          rw [List.getElem?_map, List.getElem?_map]
          by_cases hk : kt.1 = k
          · subst hk
            rw [List.getElem?_set_self (List.getElem?_eq_some_iff.1 h1).1, h1]
            exact congrArg some this
          · rw [List.getElem?_set_ne hk]
        | _ => rw [h2] at hx; cases hx
    | _ => rw [hx] at h; cases h

/-- Exit status 0 means that the data is right, whatever the functions do. -/
theorem sound {f g : ChunkFn} {stop : Bool} {a : PgAddrs} {j : PgJunk} {avail p : Nat} {ts : List Nat}
    {sched1 sched2 : List (Nat × Nat) → List (Nat × Nat)} {file : List Byte} {dec : List (List Byte)}
    (h : pgMain stop f g a j avail p ts sched1 sched2 (some (some file)) = .ok ⟨0, dec⟩) :
    dec = (List.range ts.length).map fun k =>
      padTo (pgPadded p (pgFileLength file.length) / ts.length) (file.drop (k * (pgPadded p (pgFileLength file.length) / ts.length))) := by
  unfold pgMain at h
  simp only at h
  split at h
  · cases h
  split at h
  · cases h
  generalize hlen : pgPadded p (pgFileLength file.length) / ts.length = len at *
  generalize len / sampleChunk = cpn at *
  generalize cpn / (p / ts.length) = cpc at *
  change BRes.bind (pgAll (pgCompress f a) stop cpn cpc _ _) _ = _ at h
  cases h1 : pgAll (pgCompress f a) stop cpn cpc (sched1 (pgThreads ts)) ((List.range ts.length).map (pgNode file j len cpn)) with
  | ok ms1 =>
    rw [h1] at h
    change BRes.bind (pgAll (pgDecompress g a) stop cpn cpc _ _) _ = _ at h
    cases h2 : pgAll (pgDecompress g a) stop cpn cpc (sched2 (pgThreads ts)) ms1 with
    | ok ms2 =>
      rw [h2] at h
      simp only [BRes.bind] at h
      injection h with h
      injection h with h3 h4
      by_cases hall : (ms2.all fun m => decide (m.inp = m.dec)) = true
      · have e1 := all_inp (fun k i m m' c => compress_inp) _ _ _ _ _ _ h1
        have e2 := all_inp (fun k i m m' c => decompress_inp) _ _ _ _ _ _ h2
        rw [← h4]
        have e3 : ms2.map (·.dec) = ms2.map (·.inp) := by
          apply List.map_congr_left
          intro m hm
          exact (of_decide_eq_true (List.all_eq_true.1 hall m hm)).symm
        rw [e3, e2, e1, List.map_map]
        apply List.map_congr_left
        intro k _
        exact pgNode_inp ..
      · rw [if_neg hall] at h3
        cases h3
    | _ => rw [h2] at h; cases h
  | _ => rw [h1] at h; cases h

end Pg
end Lib842
